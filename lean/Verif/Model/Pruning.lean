import Verif.Model.Expr
/-!
# Predicate pruning: vortex-serde/src/layouts/pruning.rs

A filter is turned into an expression over the min/max statistics of a chunk; the chunk may be skipped when that expression is true
(the tests of pruning.rs and the shape `min > v or v > max` for `col = v` fix this reading).
-/
namespace Vx.RowExpr

variable {V : Type}

/-- The two statistics pruning uses (vortex-array/src/stats/mod.rs:19-48). -/
inductive MStat where
  | min | max
  deriving DecidableEq, Repr

/-- `Display for Stat`: vortex-array/src/stats/mod.rs:33-48 -/
def MStat.show : MStat → List Char
  | .min => ['m', 'i', 'n']
  | .max => ['m', 'a', 'x']

/-- `stat_column_name`: pruning.rs:203-208 -/
def statName : Field → MStat → Field
  | .name n, s => .name (n ++ '_' :: s.show)
  | .index i, s => .name (Nat.toDigits 10 i ++ '_' :: s.show)

/-- `HashMap<Field, Vec<Stat>>` as an association list with unique keys. -/
abbrev Fetch := List (Field × List MStat)

/-- `entry(field)`: push if occupied, insert a one-element vector if vacant (pruning.rs:100-109, 181-187). -/
def Fetch.push (f : Field) (s : MStat) : Fetch → Fetch
  | [] => [(f, [s])]
  | (g, ss) :: rest => if g = f then (g, ss ++ [s]) :: rest else (g, ss) :: Fetch.push f s rest

/-- `HashMap::insert`: an existing value is replaced. -/
def Fetch.insert (f : Field) (ss : List MStat) : Fetch → Fetch
  | [] => [(f, ss)]
  | (g, ts) :: rest => if g = f then (g, ss) :: rest else (g, ts) :: Fetch.insert f ss rest

/-- `refs_lhs.extend(refs_rhs)`: pruning.rs:45 -/
def Fetch.extend (a b : Fetch) : Fetch := b.foldl (fun acc e => Fetch.insert e.1 e.2 acc) a

/-- `replace_column_with_stat`: pruning.rs:175-201. -/
def replaceStat (s : MStat) : Expr V → Fetch → Option (Expr V) × Fetch
  | .col f, m => (some (.col (statName f s)), m.push f s)
  | .lit _, m => (none, m)
  | .bin l op r, m =>
    let (l', m1) := replaceStat s l m
    let (r', m2) := replaceStat s r m1
    if l'.isNone && r'.isNone then (none, m2)
    else (some (.bin (l'.getD l) op (r'.getD r)), m2)

/-- `rewrite_other_exp`: pruning.rs:111-114 -/
def rewriteOther (other : Expr V) (s : MStat) (m : Fetch) : Expr V × Fetch :=
  let (e, m') := replaceStat s other m
  (e.getD other, m')

/-- `PruningPredicateRewriter::try_new(..).and_then(rewrite)`: pruning.rs:84-172 -/
def rewriteCmp (f : Field) (op : Op) (other : Expr V) : Option (Expr V × Fetch) :=
  if f ∈ other.refs then none else
  match op with
  | .eq =>
    let m := (Fetch.push f .max (Fetch.push f .min []))
    let (rmax, m) := rewriteOther other .max m
    let (rmin, m) := rewriteOther other .min m
    some (.bin (.bin (.col (statName f .min)) .gt rmax) .or (.bin rmin .gt (.col (statName f .max))), m)
  | .neq =>
    let m := (Fetch.push f .max (Fetch.push f .min []))
    let (rmax, m) := rewriteOther other .max m
    let (rmin, m) := rewriteOther other .min m
    some (.bin (.bin (.bin (.col (statName f .min)) .eq rmin) .and (.bin rmin .eq (.col (statName f .max)))) .or
      (.bin (.bin (.col (statName f .min)) .eq rmax) .and (.bin rmax .eq (.col (statName f .max)))), m)
  | .gt | .gte =>
    let (rmin, m) := rewriteOther other .min (Fetch.push f .max [])
    some (.bin (.col (statName f .max)) .lte rmin, m)
  | .lt | .lte =>
    let (rmax, m) := rewriteOther other .max (Fetch.push f .min [])
    some (.bin (.col (statName f .min)) .gte rmax, m)
  | _ => none

/-- The literal `true` used when an expression cannot be translated: pruning.rs:33-36 -/
def fallback : Expr V × Fetch := (.lit (.bool (some true)), [])

/-- `convert_to_pruning_expression`: pruning.rs:29-71 -/
def convert : Expr V → Expr V × Fetch
  | .col _ => fallback
  | .lit _ => fallback
  | .bin l op r =>
    if op = .or ∨ op = .and then
      let (l', ml) := convert l
      let (r', mr) := convert r
      (.bin l' op r', ml.extend mr)
    else match l with
      | .col f => (rewriteCmp f op r).getD fallback
      | l => match r with
        | .col f => (rewriteCmp f op.swap l).getD fallback
        | _ => fallback

end Vx.RowExpr
