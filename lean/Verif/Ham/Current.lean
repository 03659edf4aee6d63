import Verif.Ham.Props

/-!
# C67: the statements
-/
namespace Verif.Ham
open Verif.Flags

variable {F D O M : Type} [DecidableEq F] [DecidableEq O]

/-- C67 (partial: careful histories only): after any history, `totalHamiltonian` of a system is the Hamiltonian computed anew from the
current parameters. Missing: the operations excluded by `Careful`, after which it need not be (below). -/
theorem C67_current_partial (A : Alg F D O M) (c : Cfg) (dims : Nat → D) (qsys : Nat → List Nat) (oper : Nat → Option (List O))
    (order : Nat → List Nat) (freq : Nat → Option F) {ops : List (Op F D O)} {st : St F D O M}
    (r : Runs A c (St.new dims qsys oper order freq) ops st) {s : Nat} (hs : c.isTerm s = false) {m : M}
    (h : (total A c.lim s st).2 = some m) : ∃ n, hamNow A st n s = some m := by
  have hi := (Inv.new A c dims qsys oper order freq).runs r
  obtain ⟨h1, h2⟩ := total_spec c.lim s st hs hi
  obtain ⟨hv, hm⟩ := h2 m h
  obtain ⟨-, n, m', e1, e2⟩ := h1.inv.valid s hs hv
  refine ⟨n, ?_⟩
  rw [← h1.same.hamNow A, e2, ← e1, hm]

/-- C67: after any careful history, `totalHamiltonian` gives a result whenever the current parameters give one (at a depth within the
recursion limit). -/
theorem C67_found (A : Alg F D O M) (c : Cfg) (dims : Nat → D) (qsys : Nat → List Nat) (oper : Nat → Option (List O))
    (order : Nat → List Nat) (freq : Nat → Option F) {ops : List (Op F D O)} {st : St F D O M}
    (r : Runs A c (St.new dims qsys oper order freq) ops st) {s : Nat} (hs : c.isTerm s = false) {m : M}
    (h : hamNow A st c.lim s = some m) : (total A c.lim s st).2 = some m :=
  total_complete c.lim s st hs ((Inv.new A c dims qsys oper order freq).runs r) m h

/-- C67: after any careful history, `totalHamiltonian` of a term in use is frequency times the matrix of the current operators,
orders, dimensions and positions. -/
theorem C67_term (A : Alg F D O M) (c : Cfg) (dims : Nat → D) (qsys : Nat → List Nat) (oper : Nat → Option (List O))
    (order : Nat → List Nat) (freq : Nat → Option F) {ops : List (Op F D O)} {st : St F D O M}
    (r : Runs A c (St.new dims qsys oper order freq) ops st) {s t : Nat} (ht : t ∈ st.terms s) (ho : st.oper t ≠ none) :
    (termTotal A st t).2 = (st.freq t).bind fun w => (freeNow A st t).map (A.smul w) :=
  (termTotal_spec A st t).2.2.2 (((Inv.new A c dims qsys oper order freq).runs r).term s t ht) ho

/-- C67: after any careful history, the stored free evolution, once asked for, is that of the current Hamiltonian. -/
theorem C67_unitary (A : Alg F D O M) (c : Cfg) (dims : Nat → D) (qsys : Nat → List Nat) (oper : Nat → Option (List O))
    (order : Nat → List Nat) (freq : Nat → Option F) {ops : List (Op F D O)} {st : St F D O M}
    (r : Runs A c (St.new dims qsys oper order freq) ops st) {q : Nat} (hq : c.isTerm q = false) (hf : st.feFixed q = false) {m : M}
    (h : hamNow A st c.lim q = some m) : (unitary A c st q).feMat q = some m := by
  have hi := (Inv.new A c dims qsys oper order freq).runs r
  have ht := total_complete c.lim q st hq hi m h
  have hrun : (match total A c.lim q st with
    | (st, none) => st
    | (st, some m) => { st with
        feMat := Function.update st.feMat q (some m), feFlag := Function.update st.feFlag q false,
        flag := Function.update st.flag q false }).feMat q = some m := by
    generalize total A c.lim q st = r at *
    obtain ⟨st1, o⟩ := r
    dsimp only at ht
    subst ht
    simp
  unfold unitary
  dsimp only
  by_cases h1 : st.feFlag q = true
  · rw [if_pos h1, if_neg (by simp [hf])]; exact hrun
  · rw [if_neg h1]
    by_cases h2 : (st.feMat q).isNone = true
    · rw [if_pos h2]; exact hrun
    · rw [if_neg h2]
      dsimp only
      rw [Bool.not_eq_true] at h1
      rw [Bool.not_eq_true, Option.isNone_eq_false_iff] at h2
      obtain ⟨m', hm'⟩ := Option.isSome_iff_exists.mp h2
      have h3 := hi.feMat q m' hq h1 hm'
      have hfl : st.flag q = false := not_true fun hh => by simp [hi.fe q hq hh] at h1
      obtain ⟨-, n, m'', e1, e2⟩ := hi.valid q hq ⟨hfl, by simp [h3]⟩
      rw [hm', ← h3, e1, C67_unique A st e2 h]

/-- C67: evaluating does not change what is current: not for the same system and not for any other. -/
theorem C67_evaluation_neutral (A : Alg F D O M) (c : Cfg) (dims : Nat → D) (qsys : Nat → List Nat) (oper : Nat → Option (List O))
    (order : Nat → List Nat) (freq : Nat → Option F) {ops : List (Op F D O)} {st : St F D O M}
    (r : Runs A c (St.new dims qsys oper order freq) ops st) {s : Nat} (hs : c.isTerm s = false) (n s' : Nat) :
    hamNow A (total A c.lim s st).1 n s' = hamNow A st n s' :=
  (total_spec c.lim s st hs ((Inv.new A c dims qsys oper order freq).runs r)).1.same.hamNow A n s'

/-! ## Where it fails -/

/-- C67 fails: `resetTerms` does not mark the system, so the Hamiltonian it had is still returned. -/
theorem C67_resetTerms_keeps (A : Alg F D O M) (c : Cfg) {st st' : St F D O M} {s : Nat} {m : M} (lim : Nat) (hf : st.flag s = false)
    (hm : st.mat s = some m) (e : step A c st (.resetTerms s) = some st') : (total A (lim + 1) s st').2 = some m ∧ st'.terms s = [] := by
  obtain rfl := Option.some.inj e
  exact ⟨by simp [total, hf, hm], by simp⟩

/-- C67 fails: `resetSubSys` likewise. -/
theorem C67_resetSubSys_keeps (A : Alg F D O M) (c : Cfg) {st st' : St F D O M} {s : Nat} {m : M} (lim : Nat) (hf : st.flag s = false)
    (hm : st.mat s = some m) (e : step A c st (.resetSub s) = some st') : (total A (lim + 1) s st').2 = some m ∧ st'.sub s = [] := by
  obtain rfl := Option.some.inj e
  exact ⟨by simp [total, hf, hm], by simp⟩

/-- C67 fails: giving a term the system it has already removes its operator without a mark; the Hamiltonian of the system still contains the
term. -/
theorem C67_same_system_keeps (A : Alg F D O M) (c : Cfg) {st st' : St F D O M} {s t : Nat} {m : M} (lim : Nat) (ht : c.isTerm t = true)
    (hf : st.flag s = false) (hm : st.mat s = some m) (e : step A c st (.qSystem t (st.qsys t)) = some st') :
    (total A (lim + 1) s st').2 = some m ∧ st'.oper t = none := by
  simp only [step, ht, if_true, ne_eq, not_true_eq_false, if_false, Option.some.injEq] at e
  subst e
  exact ⟨by simp [total, hf, hm], by simp⟩

/-- C67 fails: `unitary()` of a system whose free evolution is fixed removes the mark of the system without computing anything; the old
Hamiltonian is returned from then on. -/
theorem C67_fixed_unitary_keeps (A : Alg F D O M) (c : Cfg) {st : St F D O M} {q : Nat} {m : M} (lim : Nat) (hx : st.feFixed q = true)
    (hf : st.feFlag q = true) (hm : st.mat q = some m) : (total A (lim + 1) q (unitary A c st q)).2 = some m := by
  have : unitary A c st q = { st with flag := Function.update st.flag q false } := by
    unfold unitary; simp [hf, hx]
  simp [this, total, hm]

/-! ### Removing a composite system -/

/-- A coupling that involves `y`. -/
def couples (st : St F D O M) (y t : Nat) : Prop := 1 < (st.qsys t).length ∧ y ∈ st.qsys t

omit [DecidableEq F] [DecidableEq O] in
theorem dropTerms_terms {c : Cfg} {st st' : St F D O M} {p y : Nat} (e : dropTerms c st p y = some st') :
    st'.qsys = st.qsys ∧ (∀ s, st'.terms s ⊆ st.terms s) ∧ ∀ t ∈ st'.terms p, ¬ couples st y t := by
  unfold dropTerms at e
  obtain ⟨st1, e1, e2⟩ := Option.bind_eq_some_iff.mp e
  obtain ⟨g, -, -, -, -, rfl⟩ := del_eq e1
  obtain ⟨f, -, -, rfl⟩ := mark_eq e2
  refine ⟨rfl, fun s t ht => ?_, fun t ht => ?_⟩
  · simp only [inval, Function.update_apply] at ht
    by_cases e : s = p
    · subst e; rw [if_pos rfl] at ht; exact List.mem_of_mem_filter ht
    · rwa [if_neg e] at ht
  · simp only [inval, Function.update_self, List.mem_filter] at ht
    intro hc
    have h2 := ht.2
    simp [hc.1, hc.2] at h2

omit [DecidableEq F] [DecidableEq O] in
theorem dropAll_terms {c : Cfg} : ∀ (l : List (Nat × Nat)) {st st' : St F D O M}, dropAll c l st = some st' →
    st'.qsys = st.qsys ∧ (∀ s, st'.terms s ⊆ st.terms s) ∧ ∀ p y, (p, y) ∈ l → ∀ t ∈ st'.terms p, ¬ couples st y t := by
  intro l
  induction l with
  | nil => intro st st' e; obtain rfl : st = st' := by simpa [dropAll] using e
           exact ⟨rfl, fun _ => fun _ h => h, by simp⟩
  | cons py l ih =>
    obtain ⟨p, y⟩ := py
    intro st st' e
    rw [dropAll] at e
    obtain ⟨st1, e1, e2⟩ := Option.bind_eq_some_iff.mp e
    obtain ⟨a1, a2, a3⟩ := dropTerms_terms e1
    obtain ⟨b1, b2, b3⟩ := ih e2
    refine ⟨b1.trans a1, fun s t ht => a2 s (b2 s ht), fun p' y' hpy t ht => ?_⟩
    rcases List.mem_cons.mp hpy with h | h
    · obtain ⟨rfl, rfl⟩ := Prod.mk.inj h
      exact a3 t (b2 _ ht)
    · have := b3 p' y' h t ht
      rwa [couples, a1] at this

theorem innerDrops_foldl {sub : Nat → List Nat} {lim x : Nat} : ∀ (l : List Nat) (o : Option (List (Nat × Nat))) (r : List (Nat × Nat)),
    l.foldl (fun acc q => acc.bind fun l => (innerDrops sub lim q).map fun l' => l ++ l' ++ [(x, q)]) o = some r →
    ∃ l0, o = some l0 ∧ (∀ p ∈ l0, p ∈ r) ∧ ∀ q ∈ l, (x, q) ∈ r := by
  intro l
  induction l with
  | nil => intro o r h; exact ⟨r, h, fun _ h => h, by simp⟩
  | cons q l ih =>
    intro o r h
    rw [List.foldl_cons] at h
    obtain ⟨l1, e1, h2, h3⟩ := ih _ r h
    obtain ⟨l0, e0, e1⟩ := Option.bind_eq_some_iff.mp e1
    obtain ⟨l', -, rfl⟩ := Option.map_eq_some_iff.mp e1
    refine ⟨l0, e0, fun p hp => h2 p (by simp [hp]), fun q' hq' => ?_⟩
    rcases List.mem_cons.mp hq' with rfl | hq'
    · exact h2 _ (by simp)
    · exact h3 q' hq'

omit [DecidableEq F] [DecidableEq O] in
theorem dropAll_sub {c : Cfg} : ∀ (l : List (Nat × Nat)) {st st' : St F D O M}, dropAll c l st = some st' → st'.sub = st.sub := by
  intro l
  induction l with
  | nil => intro st st' e; obtain rfl : st = st' := by simpa [dropAll] using e
           rfl
  | cons py l ih =>
    obtain ⟨p, y⟩ := py
    intro st st' e
    rw [dropAll] at e
    obtain ⟨st1, e1, e2⟩ := Option.bind_eq_some_iff.mp e
    rw [ih e2]
    unfold dropTerms at e1
    obtain ⟨st3, e3, e4⟩ := Option.bind_eq_some_iff.mp e1
    obtain ⟨g, -, -, -, -, rfl⟩ := del_eq e3
    obtain ⟨f, -, -, rfl⟩ := mark_eq e4
    rfl

/-- What removing a system does to terms: no coupling that involves it is left in the composite it was in, nor in the systems through
which the removal was called; and, if it is a composite itself, all of its own couplings that involve one of its sub-systems are gone,
although it keeps these sub-systems. -/
theorem C67_removal_drops (A : Alg F D O M) (c : Cfg) {st st' : St F D O M} {s x : Nat} {callers : List Nat} {d : Nat → D}
    (e : step A c st (.removeSub s x callers d) = some st') :
    (∀ p ∈ s :: callers, ∀ t ∈ st'.terms p, ¬ couples st x t) ∧
    (∀ q ∈ st.sub x, ∀ t ∈ st'.terms x, ¬ couples st q t) ∧ (∀ y, y ≠ s → st'.sub y = st.sub y) ∧ st'.sub s = (st.sub s).erase x := by
  simp only [step] at e
  by_cases hx : x ∈ st.sub s
  · rw [if_pos hx] at e
    obtain ⟨inner, ei, e⟩ := Option.bind_eq_some_iff.mp e
    obtain ⟨st1, e1, e⟩ := Option.bind_eq_some_iff.mp e
    obtain ⟨st2, e2, e⟩ := Option.bind_eq_some_iff.mp e
    obtain ⟨a1, a2, a3⟩ := dropAll_terms _ e1
    obtain ⟨b1, b2, b3⟩ := dropAll_terms _ e
    have hs1 : st1.sub = st.sub := dropAll_sub _ e1
    have hs2 : st'.sub = st2.sub := dropAll_sub _ e
    obtain ⟨g, -, -, -, -, rfl⟩ := del_eq e2
    refine ⟨fun p hp t ht => ?_, fun q hq t ht => ?_, fun y hy => ?_, ?_⟩
    · have := b3 p x (by rcases List.mem_cons.mp hp with rfl | hp <;> simp_all) t ht
      simpa only [couples, inval, a1] using this
    · have hmem : (x, q) ∈ inner := by
        cases hl : c.lim with
        | zero => rw [hl] at ei; simp [innerDrops] at ei
        | succ lim =>
          rw [hl, innerDrops] at ei
          obtain ⟨-, -, -, h⟩ := innerDrops_foldl _ _ _ ei
          exact h q hq
      exact a3 x q hmem t (b2 x ht)
    · rw [hs2]
      simp only [inval, Function.update_of_ne hy, hs1]
    · rw [hs2]
      simp only [inval, Function.update_self, hs1]
  · rw [if_neg hx] at e; simp at e

/-! ## Examples -/

/-- Numbers instead of matrices. -/
def demoA : Alg Int Int Int Int where
  zero := 0
  add := fun a b => some (a + b)
  smul := fun w m => w * m
  free := fun l => some (l.foldl (fun v x => v * (x.1 * x.2.1 ^ x.2.2)) 1)

/-- Terms are 10, 11, … -/
def demoC : Cfg where
  lim := 12
  isTerm := fun n => decide (10 ≤ n)

/-- Systems 0 (composite), 1 and 2; terms 10 of 1, 11 of 2 and the coupling 12. -/
def demoSt : St Int Int Int Int :=
  St.new (fun n => if n = 1 then 2 else if n = 2 then 3 else 1)
    (fun t => if t = 10 then [1] else if t = 11 then [2] else if t = 12 then [1, 2] else [])
    (fun t => if t = 10 then some [1] else if t = 11 then some [1] else if t = 12 then some [1, 1] else none)
    (fun t => if t = 12 then [1, 1] else [1]) (fun t => if t = 10 then some 5 else if t = 11 then some 7 else some 1)

/-- The history without the checks. -/
def exec (A : Alg F D O M) (c : Cfg) (st : St F D O M) (ops : List (Op F D O)) : Option (St F D O M) :=
  ops.foldl (fun acc op => acc.bind fun st => step A c st op) (some st)

/-- Building the composite. -/
def build : List (Op Int Int Int) :=
  [.addSub 0 1 demoSt.dims, .addSub 0 2 demoSt.dims, .addTerm 1 10, .addTerm 2 11, .addTerm 0 12, .total 0]

/-- What `totalHamiltonian` of a system gives after a history, and what it should give. -/
def after (ops : List (Op Int Int Int)) (s : Nat) : Option (Option Int × Option Int) :=
  (exec demoA demoC demoSt ops).map fun st => ((total demoA demoC.lim s st).2, hamNow demoA st 12 s)

example : after build 0 = some (some 37, some 37) := by decide +kernel
example : after (build ++ [.frequency 10 (some 6)]) 0 = some (some 39, some 39) := by decide +kernel
example : after (build ++ [.dimension 1 fun n => if n = 1 then 4 else if n = 2 then 3 else 1]) 0 = some (some 53, some 53) := by decide +kernel
example : after (build ++ [.operator 12 [2, 3]]) 0 = some (some 67, some 67) := by decide +kernel
example : after (build ++ [.removeTerm 0 12 []]) 0 = some (some 31, some 31) := by decide +kernel
example : after (build ++ [.removeSub 0 1 [] demoSt.dims]) 0 = some (some 21, some 21) := by decide +kernel

/-- C67 fails: the Hamiltonian after `resetTerms`, and the one that would be current. -/
theorem C67_resetTerms_witness : after (build ++ [.resetTerms 0]) 0 = some (some 37, some 31) := by decide +kernel

/-- C67 fails: after `resetSubSys`. -/
theorem C67_resetSubSys_witness : after (build ++ [.resetSub 0]) 0 = some (some 37, some 6) := by decide +kernel

/-- C67 fails: after giving the coupling its systems again. -/
theorem C67_same_system_witness : after (build ++ [.qSystem 12 [1, 2]]) 0 = some (some 37, some 31) := by decide +kernel

/-- C67 fails: after a change of frequency followed by `unitary()` with a fixed free evolution. -/
theorem C67_fixed_witness : after (build ++ [.fixed 0 true, .frequency 10 (some 6), .unitary 0]) 0 = some (some 37, some 39) := by
  decide +kernel

/-- C67 fails: a term that is removed, and added again after the dimension of its system changed, contributes its old matrix. -/
theorem C67_readded_witness :
    after (build ++ [.removeTerm 0 12 [], .dimension 1 fun n => if n = 1 then 4 else if n = 2 then 3 else 1, .addTerm 0 12]) 0
      = some (some 47, some 53) := by decide +kernel

/-- Removing a system from the inner composite it is in leaves the couplings of the outer composite that involve it. -/
theorem C67_outer_coupling_witness :
    (exec demoA demoC demoSt [.addSub 0 1 demoSt.dims, .addSub 3 0 demoSt.dims, .addSub 3 2 demoSt.dims, .addTerm 3 12,
      .removeSub 0 1 [] demoSt.dims]).map (fun st => (st.sub 0, st.sub 3, st.terms 3, st.qsys 12)) = some ([], [0, 2], [12], [1, 2]) := by
  decide +kernel

/-- A history to which the theorems apply: it is careful, and gives a new result. -/
example : ∃ st, Runs demoA demoC demoSt [.addSub 0 1 demoSt.dims, .addTerm 1 10, .total 0, .frequency 10 (some 6)] st ∧
    (total demoA demoC.lim 0 st).2 = some 12 := by
  refine ⟨_, Runs.cons ?_ rfl (Runs.cons ?_ rfl (Runs.cons trivial rfl (Runs.cons trivial rfl (Runs.nil _)))), ?_⟩
  · exact fun y hy => absurd rfl hy
  · exact ⟨Or.inl rfl, fun q hq => by
      change q ∈ [1] at hq
      obtain rfl : q = 1 := by simpa using hq
      exact Relation.ReflTransGen.refl⟩
  · decide +kernel

end Verif.Ham
