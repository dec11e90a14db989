import Verif.Model.StatsMerge
import Verif.Model.StoredStats
/-!
# The statistics cache of an array, shared by threads

Every in-memory array keeps the statistics known of it in a map behind a read-write lock; clones of the array share the map
(vortex-array/src/data.rs:16-26). `get`, `set`, `to_set` and `compute` (data.rs:140-191) may be called by any number of threads, on the
array and, because computing the statistics of an array asks its children, on its children. The machine below interleaves the lock
operations of these calls.

Simplifications: arrays are numbered (in the order they were built, so that children have smaller numbers than their parents); what a
`compute_statistics` does besides asking other arrays is one step. A thread that panics is gone.
-/
namespace Vx.StatsCache

/-- The operations of a map of statistics: `C` maps, `K` statistics, `V` values. -/
structure Ops (C K V : Type) where
  get : C → K → Option V
  /-- `Extend`: vortex-array/src/stats/statsset.rs:242-247; the second map's entries win. -/
  extend : C → C → C
  put : C → K → V → C

/-- The calls of `trait Statistics`: vortex-array/src/stats/mod.rs:50-61; the first argument is the array. -/
inductive Op (K V : Type) where
  | get (n : Nat) (k : K)
  | toSet (n : Nat)
  | set (n : Nat) (k : K) (v : V)
  | compute (n : Nat) (k : K)

/-- The array a call is about. -/
def Op.node : Op K V → Nat
  | .get n _ => n
  | .toSet n => n
  | .set n _ _ => n
  | .compute n _ => n

/-- What a call returns. -/
inductive Ans (C V : Type) where
  | val (v : Option V)
  | map (c : C)
  | unit

/-- A computation that makes such calls: a `compute_statistics` (which ends with a map, an error or a panic), or a client. -/
inductive Prog (C K V : Type) where
  | ret (r : Res C)
  | ask (op : Op K V) (cont : Ans C V → Prog C K V)

/-- `RwLock`: the readers, whether a writer holds it, whether a writer panicked. -/
structure Lock where
  readers : Nat := 0
  writer : Bool := false
  poisoned : Bool := false
  deriving DecidableEq, Repr

/-- What a read guard is taken for. -/
inductive Purpose (K : Type) where
  | get (k : K)
  | toSet
  /-- the first look of `compute`, data.rs:175-177 -/
  | first (k : K)
  /-- the last one, data.rs:189 -/
  | last (k : K)

/-- Where a call stands. -/
inductive Call (K V : Type) where
  /-- about to take the read lock / holding it -/
  | read (n : Nat) (p : Purpose K)
  | reading (n : Nat) (p : Purpose K)
  /-- `compute` about to take the write lock, data.rs:179-183 -/
  | write (n : Nat) (k : K)
  /-- `set` about to take the write lock / holding it, data.rs:161-172 -/
  | put (n : Nat) (k : K) (v : V)
  | putting (n : Nat) (k : K) (v : V)

/-- The array whose lock the call needs or holds. -/
def Call.node : Call K V → Nat
  | .read n _ => n
  | .reading n _ => n
  | .write n _ => n
  | .put n _ _ => n
  | .putting n _ _ => n

/-- A suspended computation: what it does with the answer, and the write lock it runs under (`none` for a client). -/
structure Frame (C K V : Type) where
  cont : Ans C V → Prog C K V
  lock : Option (Nat × K)

/-- A thread: running a computation, or in a call made by the first frame, or gone. -/
inductive Thread (C K V : Type) where
  | run (p : Prog C K V) (lock : Option (Nat × K)) (frames : List (Frame C K V))
  | call (c : Call K V) (frames : List (Frame C K V))
  | dead

/-- What the threads share: the maps, the locks, and (for the statements only) the answers given so far, latest first. -/
structure Shared (C K V : Type) where
  maps : Nat → C
  locks : Nat → Lock
  log : List (Op K V × Ans C V)

def upd (f : Nat → β) (n : Nat) (x : β) : Nat → β := fun m => if m = n then x else f m

def Shared.setLock (sh : Shared C K V) (n : Nat) (f : Lock → Lock) : Shared C K V :=
  { sh with locks := upd sh.locks n (f (sh.locks n)) }

def Shared.setMap (sh : Shared C K V) (n : Nat) (c : C) : Shared C K V :=
  { sh with maps := upd sh.maps n c }

/-- The start of a call: data.rs:141-152 (`get`), 154-159 (`to_set`), 161-172 (`set`), 174-177 (`compute`). -/
def Op.start : Op K V → Call K V
  | .get n k => .read n (.get k)
  | .toSet n => .read n .toSet
  | .set n k v => .put n k v
  | .compute n k => .read n (.first k)

/-- The answer goes to the caller. -/
def resume (frames : List (Frame C K V)) (a : Ans C V) : Thread C K V :=
  match frames with
  | [] => .dead
  | f :: rest => .run (f.cont a) f.lock rest

def Shared.answer (sh : Shared C K V) (op : Op K V) (a : Ans C V) : Shared C K V := { sh with log := (op, a) :: sh.log }

/-- Dropping a write guard while the thread panics releases the lock and poisons it. -/
def poison (l : Lock) : Lock := { l with writer := false, poisoned := true }

/-- Unwinding: the guards held by the suspended computations. -/
def unwind (sh : Shared C K V) (held : List Nat) : Shared C K V :=
  held.foldl (fun sh n => sh.setLock n poison) sh

/-- The write locks held by suspended computations. -/
def heldBy (frames : List (Frame C K V)) : List Nat := frames.filterMap (fun f => f.lock.map (·.1))

/-- One step of a thread; `none` if it has to wait, or has finished. `G n k` is `compute_statistics` of the array `n`. -/
def tstep (O : Ops C K V) (G : Nat → K → Prog C K V) (sh : Shared C K V) : Thread C K V → Option (Shared C K V × Thread C K V)
  | .dead => none
  | .run (.ask op cont) lock frames => some (sh, .call op.start (⟨cont, lock⟩ :: frames))
  | .run (.ret _) none _ => none
  -- the map is extended under the write lock, which is then released; data.rs:179-189
  | .run (.ret (.ok c)) (some (n, k)) frames =>
    some ((sh.setMap n (O.extend (sh.maps n) c)).setLock n (fun l => { l with writer := false }), .call (.read n (.last k)) frames)
  -- `.ok()?`, data.rs:185-187
  | .run (.ret .err) (some (n, k)) frames =>
    some ((sh.setLock n (fun l => { l with writer := false })).answer (.compute n k) (.val none), resume frames (.val none))
  | .run (.ret .panic) (some (n, _)) frames => some (unwind sh (n :: heldBy frames), .dead)
  -- `read().unwrap_or_else(|_| vortex_panic!(…))`
  | .call (.read n p) frames =>
    if (sh.locks n).writer then none
    else if (sh.locks n).poisoned then some (unwind sh (heldBy frames), .dead)
    else some (sh.setLock n (fun l => { l with readers := l.readers + 1 }), .call (.reading n p) frames)
  | .call (.reading n p) frames =>
    let sh' := sh.setLock n (fun l => { l with readers := l.readers - 1 })
    match p with
    | .get k => some (sh'.answer (.get n k) (.val (O.get (sh.maps n) k)), resume frames (.val (O.get (sh.maps n) k)))
    | .toSet => some (sh'.answer (.toSet n) (.map (sh.maps n)), resume frames (.map (sh.maps n)))
    | .last k => some (sh'.answer (.compute n k) (.val (O.get (sh.maps n) k)), resume frames (.val (O.get (sh.maps n) k)))
    | .first k => match O.get (sh.maps n) k with
      | some v => some (sh'.answer (.compute n k) (.val (some v)), resume frames (.val (some v)))
      | none => some (sh', .call (.write n k) frames)
  -- `write().unwrap_or_else(|_| vortex_panic!(…))`
  | .call (.write n k) frames =>
    if (sh.locks n).writer || (sh.locks n).readers != 0 then none
    else if (sh.locks n).poisoned then some (unwind sh (heldBy frames), .dead)
    else some (sh.setLock n (fun l => { l with writer := true }), .run (G n k) (some (n, k)) frames)
  | .call (.put n k v) frames =>
    if (sh.locks n).writer || (sh.locks n).readers != 0 then none
    else if (sh.locks n).poisoned then some (unwind sh (heldBy frames), .dead)
    else some (sh.setLock n (fun l => { l with writer := true }), .call (.putting n k v) frames)
  | .call (.putting n k v) frames =>
    some (((sh.setMap n (O.put (sh.maps n) k v)).setLock n (fun l => { l with writer := false })).answer (.set n k v) .unit, resume frames .unit)

/-- The whole system. -/
structure State (C K V : Type) where
  sh : Shared C K V
  threads : List (Thread C K V)

/-- One of the threads takes a step. -/
def Step (O : Ops C K V) (G : Nat → K → Prog C K V) (s s' : State C K V) : Prop :=
  ∃ l t r t', s.threads = l ++ t :: r ∧ tstep O G s.sh t = some (s'.sh, t') ∧ s'.threads = l ++ t' :: r

/-- Any number of steps, of any threads in any order. -/
inductive Steps (O : Ops C K V) (G : Nat → K → Prog C K V) : State C K V → State C K V → Prop where
  | refl (s) : Steps O G s s
  | tail {s t u} : Steps O G s t → Step O G t u → Steps O G s u

/-- Threads about to run clients, on arrays whose locks are free. -/
def start (maps : Nat → C) (clients : List (Prog C K V)) : State C K V :=
  ⟨⟨maps, fun _ => {}, []⟩, clients.map (fun p => .run p none [])⟩

/-! ## The `compute_statistics` of arrays that ask others -/

/-- `<ChunkedArray as ArrayStatisticsCompute>`: vortex-array/src/array/chunked/stats.rs:6-21, with the maps collected so far; `merge` is the
`reduce`. -/
def chunkedProg (merge : List C → Res C) (k : K) : List Nat → List C → Prog C K V
  | [], acc => .ret (merge acc)
  | n :: ns, acc => .ask (.compute n k) (fun _ => .ask (.toSet n) (fun
    | .map c => chunkedProg merge k ns (acc ++ [c])
    | _ => .ret .panic))

open Vx.StoredStats (Stat)

/-- A scalar statistic: a (possibly null) value of the column, a boolean, a count, a histogram. -/
inductive SVal (α : Type) where
  | val (v : Option α)
  | bool (b : Bool)
  | nat (n : Nat)
  | freq (l : List Nat)
  deriving DecidableEq, Repr

/-- `StatsSet::get`: vortex-array/src/stats/statsset.rs:69-71, over the record of `Model/Stats`. -/
def getStat (s : StatsSet α) : Stat → Option (SVal α)
  | .min => s.min.map .val
  | .max => s.max.map .val
  | .isConstant => s.isConstant.map .bool
  | .isSorted => s.isSorted.map .bool
  | .isStrictSorted => s.isStrictSorted.map .bool
  | .runCount => s.runCount.map .nat
  | .trueCount => s.trueCount.map .nat
  | .nullCount => s.nullCount.map .nat
  | .bitWidthFreq => s.bitWidthFreq.map .freq
  | .trailingZeroFreq => s.tzFreq.map .freq

/-- `StatsSet::extend`, statsset.rs:242-247. -/
def extendStats (s o : StatsSet α) : StatsSet α where
  min := o.min <|> s.min
  max := o.max <|> s.max
  isConstant := o.isConstant <|> s.isConstant
  isSorted := o.isSorted <|> s.isSorted
  isStrictSorted := o.isStrictSorted <|> s.isStrictSorted
  runCount := o.runCount <|> s.runCount
  trueCount := o.trueCount <|> s.trueCount
  nullCount := o.nullCount <|> s.nullCount
  bitWidthFreq := o.bitWidthFreq <|> s.bitWidthFreq
  tzFreq := o.tzFreq <|> s.tzFreq

/-- `StatsSet::set`, statsset.rs:86-88; a value of the wrong kind is not modelled (the map is left as it is). -/
def putStat (s : StatsSet α) : Stat → SVal α → StatsSet α
  | .min, .val v => { s with min := some v }
  | .max, .val v => { s with max := some v }
  | .isConstant, .bool b => { s with isConstant := some b }
  | .isSorted, .bool b => { s with isSorted := some b }
  | .isStrictSorted, .bool b => { s with isStrictSorted := some b }
  | .runCount, .nat n => { s with runCount := some n }
  | .trueCount, .nat n => { s with trueCount := some n }
  | .nullCount, .nat n => { s with nullCount := some n }
  | .bitWidthFreq, .freq l => { s with bitWidthFreq := some l }
  | .trailingZeroFreq, .freq l => { s with tzFreq := some l }
  | _, _ => s

def statsOps (α : Type) : Ops (StatsSet α) Stat (SVal α) := ⟨getStat, extendStats, putStat⟩

/-- An array, as far as its statistics go: one that computes them from its own data, a chunked array, a dictionary. -/
inductive Desc (α : Type) where
  | leaf (f : Stat → Res (StatsSet α))
  | chunked (chunks : List Nat)
  | dict (codes values : Nat)

def Desc.children : Desc α → List Nat
  | .leaf _ => []
  | .chunked cs => cs
  | .dict c v => [c, v]

/-- Continue with the value answered, if any. -/
def withVal (a : Ans (StatsSet α) (SVal α)) (k : Option (SVal α) → Prog (StatsSet α) Stat (SVal α)) : Prog (StatsSet α) Stat (SVal α) :=
  match a with
  | .val v => k v
  | _ => .ret .panic

/-- `if let Some(x) = … { stats.insert(k, x) }` -/
def ins (s : StatsSet α) (k : Stat) : Option (SVal α) → StatsSet α
  | some v => putStat s k v
  | none => s

/-- `<DictArray as ArrayStatisticsCompute>`: encodings/dict/src/stats.rs:9-49, call by call. -/
def dictProg (codes values : Nat) : Prog (StatsSet α) Stat (SVal α) :=
  .ask (.compute codes .runCount) fun a => withVal a fun rc =>
  .ask (.compute values .min) fun a => withVal a fun mn =>
  .ask (.compute values .max) fun a => withVal a fun mx =>
  .ask (.compute codes .isConstant) fun a => withVal a fun ic =>
  .ask (.compute codes .nullCount) fun a => withVal a fun nc =>
  .ask (.compute values .isSorted) fun a => withVal a fun srt =>
  let s := ins (ins (ins (ins (ins {} .runCount rc) .min mn) .max mx) .isConstant ic) .nullCount nc
  match srt with
  | some (.bool true) =>
    .ask (.compute codes .isSorted) fun a => withVal a fun cs =>
    .ask (.compute codes .isStrictSorted) fun a => withVal a fun cst =>
    .ret (.ok (ins (ins s .isSorted cs) .isStrictSorted cst))
  | _ => .ret (.ok s)

/-- What computing a statistic of an array does. -/
def Desc.prog (key : α → Int) [DecidableEq α] (k : Stat) : Desc α → Prog (StatsSet α) Stat (SVal α)
  | .leaf f => .ret (f k)
  | .chunked cs => chunkedProg (StatsSet.reduceMerge key) k cs []
  | .dict c v => dictProg c v

end Vx.StatsCache
