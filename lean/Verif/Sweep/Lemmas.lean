import Verif.Sweep.Model
import Mathlib.Data.List.Range
import Mathlib.Data.List.Nodup
import Mathlib.Algebra.BigOperators.Group.List.Basic
import Mathlib.Tactic.Ring
import Mathlib.Tactic.Linarith

/-! Helper lemmas for the sweep properties. -/
namespace Verif.Sweep

/-- Mixed-radix digits, least significant first. -/
def digits : Nat → List Nat → List Nat
  | _, [] => []
  | i, a :: as => i % a :: digits (i / a) as

theorem digits_append (i : Nat) (as bs : List Nat) :
    digits i (as ++ bs) = digits i as ++ digits (i / as.prod) bs := by
  induction as generalizing i with
  | nil => simp [digits]
  | cons a as ih => simp [digits, ih, Nat.div_div_eq_div_mul]

theorem digits_length (i : Nat) (as : List Nat) : (digits i as).length = as.length := by
  induction as generalizing i with
  | nil => simp [digits]
  | cons a as ih => simp [digits, ih]

theorem digits_add_mul (q r : Nat) (as : List Nat) (h : r < as.prod) :
    digits (q * as.prod + r) as = digits r as := by
  induction as generalizing q r with
  | nil => simp [digits]
  | cons a as ih =>
    have ha : 0 < a := by
      rcases Nat.eq_zero_or_pos a with h0 | h0
      · simp [h0] at h
      · exact h0
    simp only [List.prod_cons] at h ⊢
    simp only [digits, List.cons.injEq]
    constructor
    · rw [show q * (a * as.prod) + r = r + a * (q * as.prod) by ring, Nat.add_mul_mod_self_left]
    · rw [show q * (a * as.prod) + r = r + a * (q * as.prod) by ring, Nat.add_mul_div_left _ _ ha,
        Nat.add_comm]
      apply ih
      exact Nat.div_lt_of_lt_mul h

theorem indicesLoop_eq (fd : FloatDiv) (i : Nat) (args acc : List Nat) (h : i < args.prod)
    (hb : i ≤ 2 ^ 53) :
    indicesLoop fd i args acc = some ((digits i args).reverse ++ acc) := by
  induction args generalizing i acc with
  | nil => simp [indicesLoop, digits]
  | cons a as ih =>
    have ha : 0 < a := by
      rcases Nat.eq_zero_or_pos a with h0 | h0
      · simp [h0] at h
      · exact h0
    have hdiv : fd.div (i - i % a) a = i / a := by
      rw [fd.exact _ _ ha (Nat.dvd_sub_mod i)]
      · rw [← Nat.div_eq_sub_mod_div]
      · rw [← Nat.div_eq_sub_mod_div]
        exact le_trans (Nat.div_le_self _ _) hb
    rw [indicesLoop, if_neg (by omega)]
    simp only [hdiv]
    rw [ih]
    · simp [digits]
    · simp only [List.prod_cons] at h
      exact Nat.div_lt_of_lt_mul h
    · exact le_trans (Nat.div_le_self _ _) hb

theorem range_mul (n p : Nat) :
    List.range (n * p) = (List.range n).flatMap (fun q => (List.range p).map (fun r => q * p + r)) := by
  induction n with
  | zero => simp
  | succ n ih =>
    rw [Nat.succ_mul, List.range_add, ih, List.range_succ, List.flatMap_append]
    simp

theorem reduceMul_eq (l : List Nat) : reduceMul l = l.prod := by
  cases l with
  | nil => simp [reduceMul]
  | cons x xs =>
    simp only [reduceMul, List.prod_cons]
    induction xs generalizing x with
    | nil => simp
    | cons y ys ih => simp only [List.foldl_cons, List.prod_cons, ih]; ring

theorem prepareLoop_succ {α : Type} (k : Nat) (ss : List (SweepObj α)) (acc : List Nat) :
    prepareLoop (k + 1) ss acc = ((ss.filter (·.comb)).map (·.values.length)).reverse ++ acc := by
  induction ss generalizing k acc with
  | nil => simp [prepareLoop]
  | cons s ss ih =>
    simp only [prepareLoop]
    rw [ih]
    cases hs : s.comb <;> simp [hs]

theorem prepare_cons {α : Type} (st : SweepState) (s : SweepObj α) (ss : List (SweepObj α)) :
    (prepare st (s :: ss)).inds
      = (s.values.length :: (ss.filter (·.comb)).map (·.values.length)).reverse := by
  simp [prepare, prepareLoop, prepareLoop_succ]

theorem prepare_cons_multip {α : Type} (st : SweepState) (s : SweepObj α) (ss : List (SweepObj α)) :
    (prepare st (s :: ss)).indMultip = (prepare st (s :: ss)).inds.prod := by
  simp [prepare, reduceMul_eq]

end Verif.Sweep
