import Verif.Model.Utilities
/-
Model of the memoisation of /repo/commpy/utilities.py:58 (`functools.lru_cache(maxsize=128)`) around
`decimal2bitarray`, together with the caller's ability to modify returned numpy arrays in place.
-/
namespace Verif

/-- Memory: `heap[a]` is the array at address `a`; `cache` is the LRU table, most recently used first;
`handles` are the addresses of arrays the caller has received, in order. -/
structure CacheSt where
  heap : List (List Nat)
  cache : List ((Nat × Nat) × Nat)
  handles : List Nat

def CacheSt.init : CacheSt := ⟨[], [], []⟩

/-- The memoised call (utilities.py:58-86): a hit moves the entry to the front, a miss computes, stores a new array and
evicts the least recently used entries beyond `maxsize`; exceptions are not cached.  Returns the address of the cached array. -/
def cachedCall (maxsize : Nat) (s : CacheSt) (n w : Nat) : Py Nat × CacheSt :=
  match s.cache.lookup (n, w) with
  | some a => (.ok a, { s with cache := ((n, w), a) :: s.cache.filter (fun e => e.1 != (n, w)) })
  | none =>
    match decimal2bitarray n w with
    | .error e => (.error e, s)
    | .ok v =>
      let a := s.heap.length
      (.ok a, { s with heap := s.heap ++ [v], cache := (((n, w), a) :: s.cache).take maxsize })

/-- Read an array. -/
def CacheSt.read (s : CacheSt) (a : Nat) : List Nat := s.heap.getD a []

/-- What a user program can do. `mutate h i v` is `arrays[h][i] = v` on the `h`-th array received so far
(no effect when there is no such array or index). -/
inductive CacheOp where
  /-- `dec2bitarray(n, w)`, n an int -/
  | dec (n w : Nat)
  /-- `dec2bitarray(ns, w)`, ns an array-like -/
  | decArr (ns : List Nat) (w : Nat)
  /-- `decimal2bitarray(n, w)` called directly -/
  | direct (n w : Nat)
  | mutate (handle index value : Nat)

/-- utilities.py:52-55 with the memoised `decimal2bitarray`: every block is copied from the cached array. -/
def decArrLoop (maxsize w : Nat) : List (Nat × Nat) → List Nat → CacheSt → Py (List Nat) × CacheSt
  | [], result, s => (.ok result, s)
  | (n, pox) :: rest, result, s =>
    match cachedCall maxsize s n w with
    | (.error e, s') => (.error e, s')
    | (.ok a, s') => decArrLoop maxsize w rest (writeBlock result (pox * w) (s'.read a)) s'

/-- One user operation; the output is the contents of the returned array (if any) at return time. -/
def cacheStep (maxsize : Nat) (s : CacheSt) : CacheOp → Option (Py (List Nat)) × CacheSt
  | .dec n w =>
    -- utilities.py:50-51: `decimal2bitarray(in_number, bit_width).copy()`
    match cachedCall maxsize s n w with
    | (.error e, s') => (some (.error e), s')
    | (.ok a, s') =>
      (some (.ok (s'.read a)), { s' with heap := s'.heap ++ [s'.read a], handles := s'.handles ++ [s'.heap.length] })
  | .decArr ns w =>
    match decArrLoop maxsize w ns.zipIdx (List.replicate (w * ns.length) 0) s with
    | (.error e, s') => (some (.error e), s')
    | (.ok r, s') =>
      (some (.ok r), { s' with heap := s'.heap ++ [r], handles := s'.handles ++ [s'.heap.length] })
  | .direct n w =>
    -- no copy: the caller holds the cached array itself
    match cachedCall maxsize s n w with
    | (.error e, s') => (some (.error e), s')
    | (.ok a, s') => (some (.ok (s'.read a)), { s' with handles := s'.handles ++ [a] })
  | .mutate h i v =>
    match s.handles[h]? with
    | none => (none, s)
    | some a => (none, { s with heap := s.heap.set a ((s.read a).set i v) })

/-- Run a history, collecting the outputs. -/
def cacheRun (maxsize : Nat) : CacheSt → List CacheOp → List (Option (Py (List Nat)))
  | _, [] => []
  | s, op :: ops => (cacheStep maxsize s op).1 :: cacheRun maxsize (cacheStep maxsize s op).2 ops

end Verif
