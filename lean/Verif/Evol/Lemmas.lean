import Verif.Evol.Model
import Mathlib.Data.List.Basic
import Mathlib.Data.List.Count
import Mathlib.Logic.Function.Iterate
import Mathlib.Data.List.Nodup

/-! Helper lemmas for the evolution loop. -/
namespace Verif.Evol

variable {S : Type}

theorem evolve_apply (act : Nat → Nat → S → S) (ind : Nat) : ∀ (ps : List Proto) (cur : Nat → S),
    (ps.map (·.id)).Nodup → ∀ i, evolve act ind ps cur i = if i ∈ ps.map (·.id) then act ind i (cur i) else cur i := by
  intro ps
  induction ps with
  | nil => intro cur _ i; simp [evolve]
  | cons p ps ih =>
    intro cur hnd i
    simp only [List.map_cons, List.nodup_cons] at hnd
    simp only [evolve]
    rw [ih _ hnd.2]
    by_cases hi : i = p.id
    · subst hi
      simp [hnd.1, upd]
    · simp [upd, hi]

/-- the state of protocol `i` after `k` steps starting at index `ind` -/
def stepsFrom (act : Nat → Nat → S → S) (i : Nat) : Nat → Nat → S → S
  | 0, _, s => s
  | k + 1, ind, s => stepsFrom act i k (ind + 1) (act ind i s)

theorem stepsFrom_succ (act : Nat → Nat → S → S) (i : Nat) : ∀ (k ind : Nat) (s : S),
    stepsFrom act i (k + 1) ind s = act (ind + k) i (stepsFrom act i k ind s) := by
  intro k
  induction k with
  | zero => intro ind s; rfl
  | succ k ih =>
    intro ind s
    rw [stepsFrom, ih, stepsFrom]
    congr 1; omega

/-! ## stored states -/

theorem statesOf_append (key : String) (a b : List (String × S)) :
    statesOf key (a ++ b) = statesOf key a ++ statesOf key b := by
  simp [statesOf]

/-- a kept protocol whose key is used by no other kept protocol -/
def OwnsKey (ps : List Proto) (p : Proto) : Prop :=
  p ∈ ps ∧ p.keep = true ∧ ∀ q ∈ ps, q.keep = true → q.key = p.key → q = p

theorem statesOf_storeStates_none (cur : Nat → S) (key : String) : ∀ (ps : List Proto),
    (∀ q ∈ ps, q.keep = true → q.key ≠ key) → statesOf key (storeStates cur ps) = [] := by
  intro ps
  induction ps with
  | nil => intro _; rfl
  | cons p ps ih =>
    intro h
    rw [storeStates, statesOf_append, ih (fun q hq => h q (List.mem_cons_of_mem _ hq))]
    cases hk : p.keep with
    | false => simp [statesOf]
    | true =>
      have := h p (by simp) hk
      simp [statesOf, this]

theorem statesOf_storeStates (cur : Nat → S) : ∀ (ps : List Proto) (p : Proto), (ps.map (·.id)).Nodup →
    OwnsKey ps p → statesOf p.key (storeStates cur ps) = [cur p.id] := by
  intro ps
  induction ps with
  | nil => intro p _ h; simp [OwnsKey] at h
  | cons q ps ih =>
    intro p hnd ⟨hmem, hkeep, huniq⟩
    simp only [List.map_cons, List.nodup_cons] at hnd
    rw [storeStates, statesOf_append]
    by_cases hq : q = p
    · subst hq
      rw [statesOf_storeStates_none]
      · simp [hkeep, statesOf]
      · intro r hr hrk he
        have := huniq r (List.mem_cons_of_mem _ hr) hrk he
        subst this
        exact hnd.1 (List.mem_map_of_mem hr)
    · have hp : p ∈ ps := by
        rcases List.mem_cons.mp hmem with h | h
        · exact absurd h.symm hq
        · exact h
      rw [ih p hnd.2 ⟨hp, hkeep, fun r hr => huniq r (List.mem_cons_of_mem _ hr)⟩]
      have : statesOf p.key (if q.keep then [(q.key, cur q.id)] else []) = [] := by
        cases hk : q.keep with
        | false => simp [statesOf]
        | true =>
          have : q.key ≠ p.key := fun e => hq (huniq q (by simp) hk e)
          simp [statesOf, this]
      rw [this]; rfl

theorem computeAll_cur (ps : List Proto) (st : St S) : (computeAll ps st).cur = st.cur := rfl

theorem computeAll_stored (ps : List Proto) (st : St S) :
    (computeAll ps st).stored = st.stored ++ storeStates st.cur ps := rfl

theorem loop_states (act : Nat → Nat → S → S) (ps : List Proto) (p : Proto) (hnd : (ps.map (·.id)).Nodup)
    (hown : OwnsKey ps p) : ∀ (n ind : Nat) (st : St S),
    statesOf p.key (loop act ps n ind st).stored
      = statesOf p.key st.stored ++ (List.range n).map (fun k => stepsFrom act p.id (k + 1) ind (st.cur p.id)) := by
  intro n
  have hid : p.id ∈ ps.map (·.id) := List.mem_map_of_mem hown.1
  induction n with
  | zero => intro ind st; simp [loop]
  | succ n ih =>
    intro ind st
    simp only [loop]
    rw [ih]
    simp only [computeAll_stored, computeAll_cur, statesOf_append]
    rw [statesOf_storeStates _ _ _ hnd hown]
    rw [evolve_apply _ _ _ _ hnd, if_pos hid]
    rw [List.range_succ_eq_map, List.map_cons, List.map_map]
    simp [stepsFrom, Function.comp_def]

theorem stepsFrom_const (f : Nat → S → S) (i : Nat) : ∀ (k ind : Nat) (s : S),
    stepsFrom (fun _ j => f j) i k ind s = (f i)^[k] s := by
  intro k
  induction k with
  | zero => intro ind s; rfl
  | succ k ih => intro ind s; rw [stepsFrom, ih, Function.iterate_succ_apply]

/-! ## Event counting -/

def isCompute (w : Who) : Event S → Bool
  | .compute w' _ => w' = w
  | _ => false

def isPre (w : Who) : Event S → Bool
  | .pre w' => w' = w
  | _ => false

def isPost (w : Who) : Event S → Bool
  | .post w' => w' = w
  | _ => false

theorem countP_sysComputes (cur : Nat → S) (s : Nat) : ∀ (ps : List Proto) (cf : List Nat),
    (sysComputes cur cf ps).countP (isCompute (.sys s))
      = if s ∈ cf then 0 else if s ∈ ps.map (·.sys) then 1 else 0 := by
  intro ps
  induction ps with
  | nil => intro cf; simp [sysComputes]
  | cons p ps ih =>
    intro cf
    simp only [sysComputes]
    split
    · next h =>
      rw [ih]
      by_cases hs : s ∈ cf
      · simp [hs]
      · have : s ≠ p.sys := fun e => hs (e ▸ h)
        simp [hs, this]
    · next h =>
      rw [List.countP_cons, ih]
      by_cases e : p.sys = s
      · subst e; simp [isCompute, h]
      · have e' : ¬ s = p.sys := fun h => e h.symm
        simp [isCompute, e, e']

theorem countP_sysComputes_other (cur : Nat → S) (f : Event S → Bool)
    (hf : ∀ s l, f (.compute (.sys s) l) = false) : ∀ (ps : List Proto) (cf : List Nat),
    (sysComputes cur cf ps).countP f = 0 := by
  intro ps
  induction ps with
  | nil => intro cf; simp [sysComputes]
  | cons p ps ih =>
    intro cf
    simp only [sysComputes]
    split
    · exact ih _
    · rw [List.countP_cons, ih]; simp [hf]

theorem countP_proComputes (cur : Nat → S) (ps : List Proto) (i : Nat) :
    (proComputes ps cur).countP (isCompute (.pro i)) = (ps.map (·.id)).count i := by
  induction ps with
  | nil => rfl
  | cons p ps ih =>
    simp only [proComputes, List.map_cons, List.countP_cons, List.count_cons] at ih ⊢
    rw [ih]
    by_cases e : p.id = i <;> simp [isCompute, e]

theorem countP_proComputes_other (cur : Nat → S) (f : Event S → Bool)
    (hf : ∀ s l, f (.compute (.pro s) l) = false) (ps : List Proto) : (proComputes ps cur).countP f = 0 := by
  simp [proComputes, List.countP_eq_zero, hf]

/-- the number of compute events of `w` in one `computeAll` -/
def perPoint (ps : List Proto) : Who → Nat
  | .sim => 1
  | .pro i => (ps.map (·.id)).count i
  | .sys s => if s ∈ ps.map (·.sys) then 1 else 0

theorem computeAll_count (ps : List Proto) (w : Who) (st : St S) :
    (computeAll ps st).trace.countP (isCompute w) = st.trace.countP (isCompute w) + perPoint ps w := by
  simp only [computeAll, simCompute, List.countP_append]
  cases w with
  | sim =>
    rw [countP_proComputes_other _ _ (by simp [isCompute]), countP_sysComputes_other _ _ (by simp [isCompute])]
    simp [isCompute, perPoint]
  | pro i =>
    rw [countP_proComputes, countP_sysComputes_other _ _ (by simp [isCompute])]
    simp [isCompute, perPoint]
  | sys s =>
    rw [countP_proComputes_other _ _ (by simp [isCompute]), countP_sysComputes]
    simp [isCompute, perPoint]

theorem loop_count (act : Nat → Nat → S → S) (ps : List Proto) (w : Who) : ∀ (n ind : Nat) (st : St S),
    (loop act ps n ind st).trace.countP (isCompute w) = st.trace.countP (isCompute w) + n * perPoint ps w := by
  intro n
  induction n with
  | zero => intro ind st; simp [loop]
  | succ n ih =>
    intro ind st
    simp only [loop]
    rw [ih, computeAll_count]
    simp only [List.countP_append]
    simp [isCompute, Nat.add_mul, Nat.add_assoc, Nat.add_comm]

theorem sysCalls_count (ev : Who → Event S) (f : Who → Event S → Bool)
    (hf : ∀ w w', f w (ev w') = decide (w' = w)) (s : Nat) : ∀ (ps : List Proto) (cf : List Nat),
    (sysCalls ev cf ps).countP (f (.sys s)) = if s ∈ cf then 0 else if s ∈ ps.map (·.sys) then 1 else 0 := by
  intro ps
  induction ps with
  | nil => intro cf; simp [sysCalls]
  | cons p ps ih =>
    intro cf
    simp only [sysCalls]
    split
    · next h =>
      rw [ih]
      by_cases hs : s ∈ cf
      · simp [hs]
      · have : s ≠ p.sys := fun e => hs (e ▸ h)
        simp [hs, this]
    · next h =>
      rw [List.countP_cons, ih]
      by_cases e : p.sys = s
      · subst e; simp [hf, h]
      · have e' : ¬ s = p.sys := fun h => e h.symm
        simp [hf, e, e']

theorem sysCalls_forall (ev : Who → Event S) (P : Event S → Prop) (h : ∀ s, P (ev (.sys s))) :
    ∀ (ps : List Proto) (cf : List Nat), ∀ e ∈ sysCalls ev cf ps, P e := by
  intro ps
  induction ps with
  | nil => intro cf e he; simp [sysCalls] at he
  | cons p ps ih =>
    intro cf e he
    simp only [sysCalls] at he
    split at he
    · exact ih _ _ he
    · rcases List.mem_cons.mp he with rfl | he
      · exact h _
      · exact ih _ _ he

theorem sysComputes_forall (cur : Nat → S) (P : Event S → Prop) (h : ∀ s l, P (.compute (.sys s) l)) :
    ∀ (ps : List Proto) (cf : List Nat), ∀ e ∈ sysComputes cur cf ps, P e := by
  intro ps
  induction ps with
  | nil => intro cf e he; simp [sysComputes] at he
  | cons p ps ih =>
    intro cf e he
    simp only [sysComputes] at he
    split at he
    · exact ih _ _ he
    · rcases List.mem_cons.mp he with rfl | he
      · exact h _ _
      · exact ih _ _ he

/-- events that belong to the middle part of a run -/
def isMid : Event S → Bool
  | .compute _ _ => true
  | .evolve _ => true
  | _ => false

theorem computeAll_mid (ps : List Proto) (st : St S) :
    ∃ l, (computeAll ps st).trace = st.trace ++ l ∧ ∀ e ∈ l, isMid e = true := by
  refine ⟨[.compute .sim (ps.map fun p => st.cur p.id)] ++ proComputes ps st.cur ++ sysComputes st.cur [] ps, ?_, ?_⟩
  · simp [computeAll, simCompute]
  · intro e he
    simp only [List.mem_append, List.mem_singleton] at he
    rcases he with (rfl | he) | he
    · rfl
    · simp only [proComputes, List.mem_map] at he
      obtain ⟨q, _, rfl⟩ := he; rfl
    · exact sysComputes_forall st.cur (fun e => isMid e = true) (fun _ _ => rfl) ps [] e he

theorem loop_mid (act : Nat → Nat → S → S) (ps : List Proto) : ∀ (n ind : Nat) (st : St S),
    ∃ l, (loop act ps n ind st).trace = st.trace ++ l ∧ ∀ e ∈ l, isMid e = true := by
  intro n
  induction n with
  | zero => intro ind st; exact ⟨[], by simp [loop], by simp⟩
  | succ n ih =>
    intro ind st
    simp only [loop]
    obtain ⟨l1, h1, h1'⟩ := computeAll_mid ps
      { st with cur := evolve act ind ps st.cur, trace := st.trace ++ [.evolve ind] }
    obtain ⟨l2, h2, h2'⟩ := ih (ind + 1) (computeAll ps
      { st with cur := evolve act ind ps st.cur, trace := st.trace ++ [.evolve ind] })
    refine ⟨[.evolve ind] ++ l1 ++ l2, ?_, ?_⟩
    · rw [h2, h1]; simp
    · intro e he
      simp only [List.mem_append, List.mem_singleton] at he
      rcases he with (rfl | he) | he
      · rfl
      · exact h1' e he
      · exact h2' e he

theorem timeEvol_mid (act : Nat → Nat → S → S) (b : Bool) (ps : List Proto) (n : Nat) (st : St S) :
    ∃ l, (timeEvolDefault act b ps n st).trace = st.trace ++ l ∧ ∀ e ∈ l, isMid e = true := by
  cases b with
  | true =>
    simp only [timeEvolDefault, if_true]
    obtain ⟨l1, h1, h1'⟩ := computeAll_mid ps st
    obtain ⟨l2, h2, h2'⟩ := loop_mid act ps n 0 (computeAll ps st)
    refine ⟨l1 ++ l2, by rw [h2, h1]; simp, ?_⟩
    intro e he
    rcases List.mem_append.mp he with he | he
    · exact h1' e he
    · exact h2' e he
  | false =>
    simp only [timeEvolDefault]
    refine ⟨proComputes ps st.cur ++ sysComputes st.cur [] ps, by simp, ?_⟩
    intro e he
    rcases List.mem_append.mp he with he | he
    · simp only [proComputes, List.mem_map] at he
      obtain ⟨q, _, rfl⟩ := he; rfl
    · exact sysComputes_forall st.cur (fun e => isMid e = true) (fun _ _ => rfl) ps [] e he

end Verif.Evol

namespace Verif.Evol
variable {S : Type}

/-- all current states after `k` steps started at index `ind` -/
def curFrom (act : Nat → Nat → S → S) (ps : List Proto) : Nat → Nat → (Nat → S) → (Nat → S)
  | 0, _, cur => cur
  | k + 1, ind, cur => curFrom act ps k (ind + 1) (evolve act ind ps cur)

theorem curFrom_apply (act : Nat → Nat → S → S) (ps : List Proto) (hnd : (ps.map (·.id)).Nodup) (i : Nat)
    (hi : i ∈ ps.map (·.id)) : ∀ (k ind : Nat) (cur : Nat → S),
    curFrom act ps k ind cur i = stepsFrom act i k ind (cur i) := by
  intro k
  induction k with
  | zero => intro ind cur; rfl
  | succ k ih => intro ind cur; rw [curFrom, ih, stepsFrom, evolve_apply _ _ _ _ hnd, if_pos hi]

theorem loop_filter (act : Nat → Nat → S → S) (ps : List Proto) (f : Event S → Bool) (g : (Nat → S) → Event S)
    (hev : ∀ k, f (.evolve k) = false)
    (hblk : ∀ st : St S, (computeAll ps st).trace.filter f = st.trace.filter f ++ [g st.cur]) :
    ∀ (n ind : Nat) (st : St S), (loop act ps n ind st).trace.filter f
      = st.trace.filter f ++ (List.range n).map (fun k => g (curFrom act ps (k + 1) ind st.cur)) := by
  intro n
  induction n with
  | zero => intro ind st; simp [loop]
  | succ n ih =>
    intro ind st
    simp only [loop]
    rw [ih, hblk]
    rw [List.range_succ_eq_map, List.map_cons, List.map_map]
    simp [hev, curFrom, computeAll_cur, Function.comp_def]

theorem filter_sysComputes (cur : Nat → S) (s : Nat) : ∀ (ps : List Proto) (cf : List Nat), s ∉ cf →
    (sysComputes cur cf ps).filter (isCompute (.sys s))
      = match ps.find? (fun p => p.sys = s) with
        | some q => [.compute (.sys s) [cur q.id]]
        | none => [] := by
  intro ps
  induction ps with
  | nil => intro cf _; simp [sysComputes]
  | cons p ps ih =>
    intro cf hs
    simp only [sysComputes]
    by_cases e : p.sys = s
    · subst e
      rw [if_neg hs]
      have h0 := countP_sysComputes cur p.sys ps (cf ++ [p.sys])
      rw [if_pos (by simp), List.countP_eq_length_filter, List.length_eq_zero_iff] at h0
      simp [isCompute, h0]
    · rw [List.find?_cons_of_neg (by simpa using e)]
      split
      · exact ih _ hs
      · rw [List.filter_cons_of_neg (by simpa [isCompute] using e)]
        exact ih _ (by simpa [hs] using fun h => e h.symm)

theorem filter_sysComputes_other (cur : Nat → S) (f : Event S → Bool)
    (hf : ∀ s l, f (.compute (.sys s) l) = false) (ps : List Proto) (cf : List Nat) :
    (sysComputes cur cf ps).filter f = [] := by
  have := countP_sysComputes_other cur f hf ps cf
  rwa [List.countP_eq_length_filter, List.length_eq_zero_iff] at this

theorem filter_proComputes_other (cur : Nat → S) (f : Event S → Bool)
    (hf : ∀ s l, f (.compute (.pro s) l) = false) (ps : List Proto) : (proComputes ps cur).filter f = [] := by
  have := countP_proComputes_other cur f hf ps
  rwa [List.countP_eq_length_filter, List.length_eq_zero_iff] at this

theorem filter_proComputes (cur : Nat → S) (i : Nat) : ∀ (ps : List Proto), (ps.map (·.id)).Nodup →
    (proComputes ps cur).filter (isCompute (.pro i)) = if i ∈ ps.map (·.id) then [.compute (.pro i) [cur i]] else [] := by
  intro ps
  induction ps with
  | nil => intro _; simp [proComputes]
  | cons p ps ih =>
    intro hnd
    simp only [List.map_cons, List.nodup_cons] at hnd
    have h := ih hnd.2
    simp only [proComputes, List.map_cons, List.filter_cons] at h ⊢
    rw [h]
    by_cases e : p.id = i
    · subst e; simp [isCompute, hnd.1]
    · have e' : ¬ i = p.id := fun h => e h.symm
      simp [isCompute, e, e']

theorem computeAll_filter_sim (ps : List Proto) (st : St S) :
    (computeAll ps st).trace.filter (isCompute .sim)
      = st.trace.filter (isCompute .sim) ++ [.compute .sim (ps.map fun p => st.cur p.id)] := by
  simp only [computeAll, simCompute, List.filter_append]
  rw [filter_proComputes_other _ _ (by simp [isCompute]), filter_sysComputes_other _ _ (by simp [isCompute])]
  simp [isCompute]

theorem computeAll_filter_pro (ps : List Proto) (hnd : (ps.map (·.id)).Nodup) (i : Nat) (hi : i ∈ ps.map (·.id))
    (st : St S) : (computeAll ps st).trace.filter (isCompute (.pro i))
      = st.trace.filter (isCompute (.pro i)) ++ [.compute (.pro i) [st.cur i]] := by
  simp only [computeAll, simCompute, List.filter_append]
  rw [filter_proComputes _ _ _ hnd, filter_sysComputes_other _ _ (by simp [isCompute]), if_pos hi]
  simp [isCompute]

theorem computeAll_filter_sys (ps : List Proto) (s : Nat) (q : Proto) (hq : ps.find? (fun p => p.sys = s) = some q)
    (st : St S) : (computeAll ps st).trace.filter (isCompute (.sys s))
      = st.trace.filter (isCompute (.sys s)) ++ [.compute (.sys s) [st.cur q.id]] := by
  simp only [computeAll, simCompute, List.filter_append]
  rw [filter_proComputes_other _ _ (by simp [isCompute]), filter_sysComputes _ _ _ _ (by simp), hq]
  simp [isCompute]

theorem runPoint_filter (act : Nat → Nat → S → S) (ps : List Proto) (n : Nat) (init cur0 : Nat → S)
    (f : Event S → Bool) (g : (Nat → S) → Event S)
    (hev : ∀ k, f (.evolve k) = false) (hpre : ∀ w, f (.pre w) = false) (hpost : ∀ w, f (.post w) = false)
    (hblk : ∀ st : St S, (computeAll ps st).trace.filter f = st.trace.filter f ++ [g st.cur]) :
    (runPoint act true ps n init cur0).trace.filter f
      = (List.range (n + 1)).map (fun k => g (curFrom act ps k 0
          (fun i => if i ∈ ps.map (·.id) then init i else cur0 i))) := by
  have hs : ∀ (ev : Who → Event S), (∀ w, f (ev w) = false) →
      (sysCalls ev [] ps).filter f = [] ∧ ([ev .sim] : List (Event S)).filter f = [] ∧
      (ps.map fun p => ev (.pro p.id)).filter f = [] := by
    intro ev h
    refine ⟨?_, by simp [h], ?_⟩
    · rw [List.filter_eq_nil_iff]
      intro e he
      have := sysCalls_forall ev (fun e => f e = false) (fun s => h _) ps [] e he
      simp [this]
    · rw [List.filter_eq_nil_iff]
      intro e he
      obtain ⟨p, _, rfl⟩ := List.mem_map.mp he
      simp [h]
  obtain ⟨p1, p2, p3⟩ := hs .pre hpre
  obtain ⟨q1, q2, q3⟩ := hs .post hpost
  simp only [runPoint, timeEvolDefault, if_true, List.filter_append]
  rw [q1, q2, q3, loop_filter act ps f g hev hblk, hblk]
  simp only [List.filter_append, p1, p2, p3, List.nil_append, List.append_nil, computeAll_cur]
  rw [List.range_succ_eq_map, List.map_cons, List.map_map]
  simp [curFrom, Function.comp_def]

end Verif.Evol
