import Mathlib.Data.List.Basic
import Mathlib.Data.Int.Notation

/-!
# C34: single- and multi-process execution

Model of `_poolMemory.run` (`QSim.py:361-417`).  Simplifications: a pool is its number of processes; `Pool(n)` raises for `n < 1`; whether
the simulation itself raises is a parameter of the call; the start method (`QSim.py:379-386`) is left out, it does not influence the
choice.
-/
namespace Verif.Sim.Pool

/-- The argument `p`: `True`, `False`, `None` or a pool with the given number of processes. -/
inductive P where
  | tru
  | fls
  | none
  | pool (n : ℤ)
  deriving DecidableEq

/-- The argument `coreCount`: `None`, a number, the text `'all'` (in any case), another text. -/
inductive Cores where
  | none
  | num (n : ℤ)
  | all
  | text
  deriving DecidableEq

/-- A call of `run`; `ok` tells whether the simulation itself succeeds. -/
structure Call where
  p : P
  cores : Cores
  ok : Bool := true
  deriving DecidableEq

/-- What a call does: an exception before the simulation starts, or the simulation in a single process or in a pool (and then possibly
an exception from the simulation). -/
inductive Outcome where
  | raises
  | single (ok : Bool)
  | pool (n : ℤ) (ok : Bool)
  deriving DecidableEq

/-- `multiprocessing.Pool(processes=n)`. -/
def mkPool (n : ℤ) (ok : Bool) : Outcome := if n < 1 then .raises else .pool n ok

/-- The choice made by one call, for `cpu` available cores and the remembered number `mem` (`QSim.py:388-412`).  The last case is the
unbound local variable after `print('error')`. -/
def choose (cpu : ℤ) (mem : Option ℤ) (c : Call) : Outcome :=
  match c.p with
  | .tru =>
    match c.cores with
    | .none => match mem with | none => mkPool (cpu - 1) c.ok | some n => mkPool n c.ok
    | .num n => mkPool n c.ok
    | .all => mkPool (cpu - 1) c.ok
    | .text => .raises
  | .fls => .single c.ok
  | .pool n => mkPool n c.ok
  | .none => match mem with | some n => mkPool n c.ok | none => .single c.ok

/-- One call: the outcome and the number remembered afterwards (`QSim.py:414-417`). -/
def call (cpu : ℤ) (mem : Option ℤ) (c : Call) : Outcome × Option ℤ :=
  match choose cpu mem c with
  | .pool n true => (.pool n true, some n)
  | o => (o, mem)

/-- A history of calls: all outcomes and the remembered number. -/
def history (cpu : ℤ) : Option ℤ → List Call → List Outcome × Option ℤ
  | mem, [] => ([], mem)
  | mem, c :: r => ((call cpu mem c).1 :: (history cpu (call cpu mem c).2 r).1, (history cpu (call cpu mem c).2 r).2)

/-! ### Specification -/

/-- The number of processes of the last completed multi-process run. -/
def lastPool : List Outcome → Option ℤ
  | [] => none
  | o :: r => match lastPool r with
    | some n => some n
    | none => match o with | .pool n true => some n | _ => none

/-- The outcome of the call `c` made after the calls `h` in a fresh session. -/
def after (cpu : ℤ) (h : List Call) (c : Call) : Outcome := (call cpu (history cpu none h).2 c).1

/-- The outcomes of the calls `h`. -/
def outcomes (cpu : ℤ) (h : List Call) : List Outcome := (history cpu none h).1

theorem history_mem (cpu : ℤ) : ∀ (h : List Call) (mem : Option ℤ),
    (history cpu mem h).2 = match lastPool (history cpu mem h).1 with | some n => some n | none => mem
  | [], mem => rfl
  | c :: r, mem => by
    simp only [history, lastPool]
    rw [history_mem cpu r]
    cases hl : lastPool (history cpu (call cpu mem c).2 r).1 with
    | some n => rfl
    | none =>
      simp only [call]
      cases choose cpu mem c with
      | raises => rfl
      | single ok => rfl
      | pool n ok => cases ok <;> rfl

/-- What is remembered is the size of the last completed pool. -/
theorem memory_eq (cpu : ℤ) (h : List Call) : (history cpu none h).2 = lastPool (outcomes cpu h) := by
  rw [history_mem, outcomes]
  cases lastPool (history cpu none h).1 <;> rfl

theorem call_fst (cpu : ℤ) (mem : Option ℤ) (c : Call) : (call cpu mem c).1 = choose cpu mem c := by
  simp only [call]
  split
  · rename_i h; rw [h]
  · rfl

theorem mem_pool_pos (cpu : ℤ) : ∀ (h : List Call) (mem : Option ℤ), (∀ n, mem = some n → 1 ≤ n) →
    ∀ n, (history cpu mem h).2 = some n → 1 ≤ n
  | [], mem, hm, n, hn => hm n hn
  | c :: r, mem, hm, n, hn => by
    simp only [history] at hn
    refine mem_pool_pos cpu r _ ?_ n hn
    intro k hk
    simp only [call] at hk
    split at hk
    · rename_i n' hc
      simp only [Option.some.injEq] at hk
      subst hk
      have : ∀ m, mkPool m c.ok = .pool n' true → 1 ≤ n' := by
        intro m hm
        simp only [mkPool] at hm
        split at hm
        · cases hm
        · simp only [Outcome.pool.injEq] at hm; omega
      simp only [choose] at hc
      split at hc
      · split at hc
        · split at hc
          · exact this _ hc
          · exact this _ hc
        · exact this _ hc
        · exact this _ hc
        · cases hc
      · cases hc
      · exact this _ hc
      · split at hc
        · exact this _ hc
        · cases hc
    · exact hm k hk

/-- **C34 (`p=False`).** Whatever happened before, `p=False` runs in a single process, and the call has no influence on later ones. -/
theorem C34_false (cpu : ℤ) (h : List Call) (cores : Cores) (ok : Bool) :
    after cpu h ⟨.fls, cores, ok⟩ = .single ok ∧
      ∀ c, after cpu (h ++ [⟨.fls, cores, ok⟩]) c = after cpu h c := by
  refine ⟨rfl, fun c => ?_⟩
  have : ∀ (h : List Call) mem, (history cpu mem (h ++ [⟨.fls, cores, ok⟩])).2 = (history cpu mem h).2 := by
    intro h
    induction h with
    | nil => intro mem; rfl
    | cons a r ih => intro mem; simp only [List.cons_append, history]; exact ih _
  simp only [after, this]

/-- **C34 (`p=True`).** A pool of the requested number of processes, otherwise of the size of the last completed pool, otherwise of the
available cores minus one; it raises when that number is not positive. -/
theorem C34_true (cpu : ℤ) (h : List Call) (ok : Bool) :
    (∀ n, after cpu h ⟨.tru, .num n, ok⟩ = if 1 ≤ n then .pool n ok else .raises) ∧
    (after cpu h ⟨.tru, .all, ok⟩ = if 2 ≤ cpu then .pool (cpu - 1) ok else .raises) ∧
    (∀ n, lastPool (outcomes cpu h) = some n → after cpu h ⟨.tru, .none, ok⟩ = .pool n ok) ∧
    (lastPool (outcomes cpu h) = none → after cpu h ⟨.tru, .none, ok⟩ = if 2 ≤ cpu then .pool (cpu - 1) ok else .raises) := by
  have key : ∀ n, mkPool n ok = if 1 ≤ n then .pool n ok else .raises := by
    intro n; simp only [mkPool]; by_cases h : n < 1
    · rw [if_pos h, if_neg (by omega)]
    · rw [if_neg h, if_pos (by omega)]
  have key2 : mkPool (cpu - 1) ok = if 2 ≤ cpu then .pool (cpu - 1) ok else .raises := by
    rw [key]; by_cases h : 2 ≤ cpu
    · rw [if_pos h, if_pos (by omega)]
    · rw [if_neg h, if_neg (by omega)]
  refine ⟨fun n => ?_, ?_, fun n hn => ?_, fun hn => ?_⟩
  · simp only [after, call_fst, choose, key]
  · simp only [after, call_fst, choose, key2]
  · have hm := memory_eq cpu h
    rw [hn] at hm
    have := mem_pool_pos cpu h none (by simp) n hm
    simp only [after, call_fst, choose, hm, key, this, if_true]
  · have hm := memory_eq cpu h
    rw [hn] at hm
    simp only [after, call_fst, choose, hm, key2]

/-- **C34 (`p=None`).** A pool of the size of the last completed multi-process run, or a single process when there was none. -/
theorem C34_none (cpu : ℤ) (h : List Call) (cores : Cores) (ok : Bool) :
    after cpu h ⟨.none, cores, ok⟩ = match lastPool (outcomes cpu h) with | some n => .pool n ok | none => .single ok := by
  have hm := memory_eq cpu h
  cases hl : lastPool (outcomes cpu h) with
  | none => rw [hl] at hm; simp only [after, call_fst, choose, hm]
  | some n =>
    rw [hl] at hm
    have := mem_pool_pos cpu h none (by simp) n hm
    simp only [after, call_fst, choose, hm, mkPool]
    rw [if_neg (by omega)]

theorem lastPool_append : ∀ (l : List Outcome) (n : ℤ), lastPool (l ++ [.pool n true]) = some n
  | [], n => rfl
  | o :: r, n => by simp only [List.cons_append, lastPool, lastPool_append r n]

theorem lastPool_none : ∀ l : List Outcome, (∀ n, Outcome.pool n true ∉ l) → lastPool l = none
  | [], _ => rfl
  | o :: r, h => by
    have := lastPool_none r fun n hn => h n (by simp [hn])
    simp only [lastPool, this]
    cases o with
    | pool n ok => cases ok with
      | true => exact absurd (by simp) (h n)
      | false => rfl
    | _ => rfl

/-- **C34 (`p=None` repeats the last call), partial.** It does after a completed multi-process run, and as long as there was none.
Missing: after a multi-process run followed by a single-process one, see `C34_sticky`. -/
theorem C34_repeats_partial (cpu : ℤ) (h : List Call) (cores : Cores) (ok : Bool) :
    (∀ l n, outcomes cpu h = l ++ [.pool n true] → after cpu h ⟨.none, cores, ok⟩ = .pool n ok) ∧
    ((∀ n, Outcome.pool n true ∉ outcomes cpu h) → after cpu h ⟨.none, cores, ok⟩ = .single ok) := by
  refine ⟨fun l n hl => ?_, fun hn => ?_⟩
  · rw [C34_none, hl, lastPool_append]
  · rw [C34_none, lastPool_none _ hn]

/-- False for the code: after a multi-process run and a single-process run, `p=None` uses several processes. -/
theorem C34_sticky : outcomes 8 [⟨.tru, .num 4, true⟩, ⟨.fls, .none, true⟩] = [.pool 4 true, .single true] ∧
    after 8 [⟨.tru, .num 4, true⟩, ⟨.fls, .none, true⟩] ⟨.none, .none, true⟩ = .pool 4 true := ⟨rfl, rfl⟩

/-- False for the code: on a machine with one core `p=True` always raises, and so does `p=True` with an unknown text. -/
theorem C34_raises (ok : Bool) : after 1 [] ⟨.tru, .none, ok⟩ = .raises ∧ ∀ cpu h, after cpu h ⟨.tru, .text, ok⟩ = .raises :=
  ⟨rfl, fun _ _ => rfl⟩

end Verif.Sim.Pool
