import Verif.Base.FloatOps
import Verif.Base.Res
import Mathlib.Logic.Function.Basic

/-!
# Rows of Stirling numbers (src/special.cc)

`logf`, `expf` are the library functions (`FloatOps.log`, `FloatOps.exp` stand for the fast
ones); `-INFINITY` is a parameter.  The cache is a vector of rows.  Allocation always
succeeds.
-/

namespace Dist.Stirling

open FloatOps FloatNotation

variable {F : Type} [FloatOps F]

/-- The library functions and constants the code uses. -/
structure Lib (F : Type) where
  logf : F → F
  expf : F → F
  negInf : F

/-- `log_sum_exp` (special.hpp:98-102). -/
def logSumExp (L : Lib F) (x y : F) : F :=
  let min := if lt x y then x else y
  let max := if lt x y then y else x
  max + L.logf (lit 1 1 + L.expf (min - max))

/-- `fast_log_sum_exp` (special.hpp:91-96). -/
def fastLogSumExp (x y : F) : F :=
  let min := if lt x y then x else y
  let max := if lt x y then y else x
  max + log (lit 1 1 + exp (min - max))

/-- The loop of `log_stirling1_cache_add` (special.cc:68-70) from index `k`, `fuel` steps. -/
def fillRow (L : Lib F) (logNm1 : F) (prev : List F) : Nat → Nat → List F → Res (List F)
  | 0, _, row => .ok row
  | fuel + 1, k, row => do
    let a ← getAt prev k
    let b ← getAt prev (k - 1)
    let row ← setAt row k (logSumExp L (logNm1 + a) b)
    fillRow L logNm1 prev fuel (k + 1) row

/-- `log_stirling1_cache_add` (special.cc:58-72). -/
def cacheAdd (L : Lib F) (cache : List (List F)) : Res (List (List F)) := do
  let n := cache.length
  let row := List.replicate (n + 1) (lit 0 1 : F)
  let row ← setAt row 0 L.negInf
  let row ← setAt row n (lit 0 1)
  if 1 < n then
    let prev ← getAt cache (n - 1)
    let row ← fillRow L (L.logf (ofInt ((n - 1 : Nat) : Int))) prev (n - 1) 1 row
    return cache ++ [row]
  else
    return cache ++ [row]

/-- The loop of `get_log_stirling1_row_exact` (special.cc:78-80), run `fuel` times. -/
def addRows (L : Lib F) : Nat → List (List F) → Res (List (List F))
  | 0, cache => .ok cache
  | fuel + 1, cache => do
    let cache ← cacheAdd L cache
    addRows L fuel cache

/-- `memcpy(row, cached.data(), cached.size() * sizeof(row[0]))` (special.cc:83): undefined
when the destination is shorter than the source. -/
def copyRow (cached row : List F) : Res (List F) :=
  if cached.length ≤ row.length then .ok (cached ++ row.drop cached.length) else .ub

/-- `get_log_stirling1_row_exact` (special.cc:74-84).  Every step of the loop makes the cache
one longer, so the loop runs `n + 1 - size` times. -/
def rowExact (L : Lib F) (n : Nat) (cache : List (List F)) (row : List F) :
    Res (List (List F) × List F) := do
  let cache ← addRows L (n + 1 - cache.length) cache
  let cached ← getAt cache n
  let row ← copyRow cached row
  return (cache, row)

/-- One entry of the loop of the approximation (special.cc:125-132). -/
def approxEntry (L : Lib F) (n k : Nat) : F :=
  let logFactNm1 : F := logFactorial (n - 1)
  let logNSq : F := L.logf (ofInt ((n * n : Nat) : Int) / lit 2 1)
  let eulerGamma : F := lit 57721566490153286060 (10 ^ 20)
  let logStuff : F := L.logf (eulerGamma + L.logf (ofInt ((n - 1 : Nat) : Int)))
  let softness : F := ofInt (n : Int) / lit 3 1
  let approx1 := logFactNm1 - logFactorial (k - 1) + ofInt ((k - 1 : Nat) : Int) * logStuff
  let approx2 := ofInt ((n - k : Nat) : Int) * logNSq - logFactorial (n - k)
  (-softness) * fastLogSumExp (-(lit 1 1) / softness * approx1) (-(lit 1 1) / softness * approx2)

/-- The loop of the approximation (special.cc:124-133) from index `k`, `fuel` steps. -/
def approxLoop (L : Lib F) (n : Nat) : Nat → Nat → List F → Res (List F)
  | 0, _, row => .ok row
  | fuel + 1, k, row => do
    let row ← setAt row k (approxEntry L n k)
    approxLoop L n fuel (k + 1) row

/-- `get_log_stirling1_row_approx` (special.cc:86-134). -/
def rowApprox (L : Lib F) (n : Nat) (row : List F) : Res (List F) := do
  let row ← setAt row 0 L.negInf
  let row ← setAt row n (lit 0 1)
  approxLoop L n (n - 1) 1 row

/-- `get_log_stirling1_row(n, result)` (special.cc:136-142 and 273-277): the public entry point
resizes `result` to `n + 1` entries first.  `result` is its former content. -/
def getRow (L : Lib F) (n : Nat) (cache : List (List F)) (result : List F) :
    Res (List (List F) × List F) := do
  let row := (result ++ List.replicate (n + 1 - result.length) (lit 0 1)).take (n + 1)
  if n < 32 then
    rowExact L n cache row
  else
    let row ← rowApprox L n row
    return (cache, row)

/-! ## Concurrent callers

`get_log_stirling1_row_exact` holds one mutex from its first to its last statement
(special.cc:76).  The steps below interleave the statements of any number of threads. -/

/-- Where a thread is in `get_log_stirling1_row(n, row)`. -/
inductive PC (F : Type) where
  | idle
  /-- waiting for the lock, or in a call that does not need it -/
  | called (n : Nat) (row : List F)
  /-- holding the lock, at the loop test of line 78 -/
  | filling (n : Nat) (row : List F)
  /-- holding the lock, at the loop test of line 68 with counter `k` -/
  | writing (n : Nat) (row : List F) (k : Nat)
  | done (n : Nat) (row : List F)

/-- The shared cache, the owner of the mutex and the program counters. -/
structure Sys (F : Type) where
  cache : List (List F)
  holder : Option Nat
  pc : Nat → PC F

/-- Initial state: static initialisation (special.cc:55-56). -/
def Sys.start : Sys F := ⟨[], none, fun _ => .idle⟩

/-- One atomic step of one thread. -/
inductive Step (L : Lib F) : Sys F → Sys F → Prop
  /-- a thread that is not in a call enters one with a vector of `n + 1` entries -/
  | call (s : Sys F) (t n : Nat) (row : List F) (h : s.pc t = .idle ∨ ∃ m r, s.pc t = .done m r)
      (hr : row.length = n + 1) : Step L s { s with pc := Function.update s.pc t (.called n row) }
  | approx (s : Sys F) (t n : Nat) (row r : List F) (h : s.pc t = .called n row) (hn : 32 ≤ n)
      (hr : rowApprox L n row = .ok r) :
      Step L s { s with pc := Function.update s.pc t (.done n r) }
  | acquire (s : Sys F) (t n : Nat) (row : List F) (h : s.pc t = .called n row) (hn : n < 32)
      (hl : s.holder = none) :
      Step L s { s with holder := some t, pc := Function.update s.pc t (.filling n row) }
  /-- lines 59-64: a new row with its end points -/
  | push (s : Sys F) (t n : Nat) (row r0 r1 : List F)
      (h : s.pc t = .filling n row) (hn : s.cache.length ≤ n)
      (h0 : setAt (List.replicate (s.cache.length + 1) (lit 0 1 : F)) 0 L.negInf = .ok r0)
      (h1 : setAt r0 s.cache.length (lit 0 1) = .ok r1) :
      Step L s { s with
        cache := s.cache ++ [r1]
        pc := Function.update s.pc t
          (if 1 < s.cache.length then .writing n row 1 else .filling n row) }
  /-- lines 68-69: one entry of the last row -/
  | write (s : Sys F) (t n k : Nat) (row prev cur cur' : List F) (a b : F) (cache : List (List F))
      (h : s.pc t = .writing n row k) (hk : k < s.cache.length - 1)
      (hp : getAt s.cache (s.cache.length - 2) = .ok prev)
      (ha : getAt prev k = .ok a) (hb : getAt prev (k - 1) = .ok b)
      (hc : getAt s.cache (s.cache.length - 1) = .ok cur)
      (hs : setAt cur k
        (logSumExp L (L.logf (ofInt ((s.cache.length - 2 : Nat) : Int)) + a) b) = .ok cur')
      (hw : setAt s.cache (s.cache.length - 1) cur' = .ok cache) :
      Step L s { s with cache := cache, pc := Function.update s.pc t (.writing n row (k + 1)) }
  | rowEnd (s : Sys F) (t n k : Nat) (row : List F)
      (h : s.pc t = .writing n row k) (hk : s.cache.length - 1 ≤ k) :
      Step L s { s with pc := Function.update s.pc t (.filling n row) }
  | copy (s : Sys F) (t n : Nat) (row cached r : List F) (h : s.pc t = .filling n row)
      (hn : n < s.cache.length) (hc : getAt s.cache n = .ok cached)
      (hr : copyRow cached row = .ok r) :
      Step L s { s with holder := none, pc := Function.update s.pc t (.done n r) }

end Dist.Stirling
