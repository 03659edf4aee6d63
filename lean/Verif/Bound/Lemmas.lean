import Verif.Bound.Model
/-!
# Lemmas on bound parameters: what each statement writes, and hierarchical heaps
-/
namespace Verif.Bound
variable {V : Type} [DecidableEq V] (A : Arith V)

/-- `h'` differs from `h` only in the parameters `K` of simulation `c`, in hidden values of bound parameters, and in bounds
being broken. -/
structure Mut (c : Nat) (K : Key → Prop) (h h' : Heap V) : Prop where
  frame : ∀ s k, (s = c ∧ K k) ∨ (h'.bnd s k = h.bnd s k ∧ (h'.val s k = h.val s k ∨ ∃ t, h.bnd s k = .to t))
  weak : ∀ s k, h'.bnd s k = h.bnd s k ∨ h'.bnd s k = .broken
  tbw : ∀ s, h'.tb s = h.tb s ∨ h'.tb s = none

theorem Mut.refl (c : Nat) (K : Key → Prop) (h : Heap V) : Mut c K h h :=
  ⟨fun _ _ => Or.inr ⟨rfl, Or.inl rfl⟩, fun _ _ => Or.inl rfl, fun _ => Or.inl rfl⟩

theorem Mut.trans {c : Nat} {K : Key → Prop} {h h' h'' : Heap V} (a : Mut c K h h') (b : Mut c K h' h'') : Mut c K h h'' := by
  refine ⟨fun s k => ?_, fun s k => ?_, fun s => ?_⟩
  · rcases a.frame s k with x | ⟨x1, x2⟩
    · exact Or.inl x
    · rcases b.frame s k with y | ⟨y1, y2⟩
      · exact Or.inl y
      · refine Or.inr ⟨y1.trans x1, ?_⟩
        rcases y2 with y2 | ⟨t, ht⟩
        · rcases x2 with x2 | x2
          · exact Or.inl (y2.trans x2)
          · exact Or.inr x2
        · exact Or.inr ⟨t, x1 ▸ ht⟩
  · rcases b.weak s k with y | y
    · rw [y]; exact a.weak s k
    · exact Or.inr y
  · rcases b.tbw s with y | y
    · rw [y]; exact a.tbw s
    · exact Or.inr y

theorem Mut.mono {c : Nat} {K K' : Key → Prop} {h h' : Heap V} (a : Mut c K h h') (i : ∀ k, K k → K' k) : Mut c K' h h' :=
  ⟨fun s k => (a.frame s k).imp (fun x => ⟨x.1, i k x.2⟩) id, a.weak, a.tbw⟩

theorem mut_setValue (h : Heap V) (c : Nat) (k : Key) (v : Option V) : Mut c (· = k) h (setValue h c k v) := by
  refine ⟨fun s k' => ?_, fun s k' => ?_, fun s => Or.inl rfl⟩
  · by_cases e : s = c ∧ k' = k
    · exact Or.inl e
    · exact Or.inr ⟨by simp [setValue, putVal, putBnd, e], Or.inl (by simp [setValue, putVal, putBnd, e])⟩
  · by_cases e : s = c ∧ k' = k
    · exact Or.inr (by simp [setValue, putVal, putBnd, e])
    · exact Or.inl (by simp [setValue, putVal, putBnd, e])

theorem mut_copy (h : Heap V) (c : Nat) (k : Key) (K : Key → Prop) : Mut c K h (copyFromBound h c k) := by
  unfold copyFromBound
  split
  · rename_i t ht
    refine ⟨fun s k' => Or.inr ⟨rfl, ?_⟩, fun _ _ => Or.inl rfl, fun _ => Or.inl rfl⟩
    by_cases e : s = c ∧ k' = k
    · exact Or.inr ⟨t, by rw [e.1, e.2]; exact ht⟩
    · exact Or.inl (by simp [putVal, e])
  · exact Mut.refl _ _ _

theorem mut_breakTime (h : Heap V) (c : Nat) (K : Key → Prop) : Mut c K h (breakTime h c) := by
  unfold breakTime
  split
  · exact Mut.refl _ _ _
  · refine ⟨fun s k' => Or.inr ⟨rfl, Or.inl rfl⟩, fun _ _ => Or.inl rfl, fun s => ?_⟩
    by_cases e : s = c
    · exact Or.inr (by simp [e])
    · exact Or.inl (by simp [e])

theorem mut_setAttrParam {lim : Nat} {h h' : Heap V} {c : Nat} {k : Key} {v : Option V}
    (e : setAttrParam lim h c k v = some h') : Mut c (· = k) h h' := by
  unfold setAttrParam at e
  split at e
  · exact absurd e (by simp)
  · simp only [Option.some.injEq] at e
    subst e
    split
    · exact (mut_breakTime h c _).trans (mut_setValue _ _ _ _)
    · exact mut_breakTime h c _

/-- The parameters of its own simulation that an assignment may change. -/
def keysOf : Key → Key → Prop
  | .step => fun k => k = .step ∨ k = .count
  | .total => fun k => k = .total ∨ k = .count
  | .count => fun k => k = .count ∨ k = .step
  | k => (· = k)

theorem mut_setTotal {lim : Nat} {h h' : Heap V} {c : Nat} {v : V} (e : setTotal A lim h c v = some h') :
    Mut c (keysOf .total) h h' := by
  unfold setTotal at e
  split at e
  · simp at e
  rename_i h1 e1
  have m1 : Mut c (keysOf .total) h h1 := (mut_copy h c .step _).trans ((mut_setAttrParam e1).mono fun _ x => Or.inl x)
  split at e
  · simp at e
  · simp only [Option.some.injEq] at e; exact e ▸ m1
  · simp only [Option.map_eq_some_iff] at e
    obtain ⟨n, -, rfl⟩ := e
    exact m1.trans ((mut_setValue _ _ _ _).mono fun _ x => Or.inr x)

theorem mut_setStep {lim : Nat} {h h' : Heap V} {c : Nat} {v : V} (e : setStep A lim h c v = some h') :
    Mut c (keysOf .step) h h' := by
  unfold setStep at e
  split at e
  · simp at e
  rename_i h1 e1
  have m1 : Mut c (keysOf .step) h h1 := (mut_copy h c .total _).trans ((mut_setAttrParam e1).mono fun _ x => Or.inl x)
  split at e
  · simp at e
  · simp only [Option.some.injEq] at e; exact e ▸ m1
  · simp only [Option.map_eq_some_iff] at e
    obtain ⟨n, -, rfl⟩ := e
    exact m1.trans ((mut_setValue _ _ _ _).mono fun _ x => Or.inr x)

theorem mut_setCount {lim : Nat} {h h' : Heap V} {c : Nat} {v : V} (e : setCount A lim h c v = some h') :
    Mut c (keysOf .count) h h' := by
  unfold setCount at e
  split at e
  · simp at e
  rename_i h1 e1
  have m1 : Mut c (keysOf .count) h h1 := (mut_copy h c .total _).trans ((mut_setAttrParam e1).mono fun _ x => Or.inl x)
  split at e
  · simp at e
  · simp only [Option.some.injEq] at e; exact e ▸ m1
  · simp only [Option.map_eq_some_iff] at e
    obtain ⟨n, -, rfl⟩ := e
    exact m1.trans ((mut_setValue _ _ _ _).mono fun _ x => Or.inr x)

theorem mut_setProp {lim : Nat} {h h' : Heap V} {c : Nat} {k : Key} {v : V} (e : setProp A lim h c k v = some h') :
    Mut c (keysOf k) h h' := by
  cases k
  · exact mut_setStep A e
  · exact mut_setTotal A e
  · exact mut_setCount A e
  · exact mut_setAttrParam e
  · simp only [setProp, Option.some.injEq] at e; exact e ▸ mut_setValue _ _ _ _
  · simp only [setProp, Option.some.injEq] at e; exact e ▸ mut_setValue _ _ _ _

theorem mut_getCount {lim : Nat} {h h' : Heap V} {c : Nat} {m : V} (e : getCount A lim h c = some (m, h')) :
    Mut c (fun k => k = .total ∨ k = .count) h h' := by
  unfold getCount at e
  split at e
  · simp at e
  · simp only [Option.map_eq_some_iff, Prod.mk.injEq] at e
    obtain ⟨n, -, -, rfl⟩ := e
    exact ((mut_setValue _ _ _ _).mono fun _ x => Or.inl x).trans ((mut_setValue _ _ _ _).mono fun _ x => Or.inr x)
  · simp only [Option.map_eq_some_iff, Prod.mk.injEq] at e
    obtain ⟨n, -, -, rfl⟩ := e
    exact (mut_setValue _ _ _ _).mono fun _ x => Or.inr x
  · simp at e

theorem mut_bindKey {lim s o : Nat} {h h' : Heap V} {b b' : Bool} {k : Key}
    (e : bindKey A lim s o h b k = some (h', b')) : Mut s (fun _ => True) h h' := by
  unfold bindKey at e
  split at e
  · dsimp only at e
    split at e
    · simp at e
    rename_i h1 e1
    have m1 : Mut s (fun _ => True) h h1 := by
      split at e1
      · simp only [Option.some.injEq] at e1; exact e1 ▸ Mut.refl _ _ _
      · split at e1
        · exact (mut_setProp A e1).mono fun _ _ => trivial
        · simp at e1
    split at e
    · split at e
      · simp only [Option.some.injEq, Prod.mk.injEq] at e; exact e.1 ▸ m1
      · split at e
        · simp only [Option.map_eq_some_iff, Prod.mk.injEq] at e
          obtain ⟨h2, e2, rfl, -⟩ := e
          exact m1.trans ((mut_setProp A e2).mono fun _ _ => trivial)
        · simp only [Option.some.injEq, Prod.mk.injEq] at e; exact e.1 ▸ m1
    · simp only [Option.some.injEq, Prod.mk.injEq] at e; exact e.1 ▸ m1
  · simp only [Option.some.injEq, Prod.mk.injEq] at e; exact e.1 ▸ Mut.refl _ _ _

/-- The simulation a statement is addressed to. -/
def Cmd.sim : Cmd V → Nat
  | .set s _ _ => s
  | .readCount s => s
  | .bind s _ _ => s

/-- The parameters a statement may write: `stepSize` and `totalTime` also determine `stepCount`, `stepCount` also determines
`stepSize`, and reading `stepCount` may fill in `totalTime`. -/
def Cmd.writes : Cmd V → Nat → Key → Prop
  | .set s k _ => fun c k' => c = s ∧ keysOf k k'
  | .readCount s => fun c k' => c = s ∧ (k' = .total ∨ k' = .count)
  | .bind s _ _ => fun c _ => c = s

theorem Cmd.sim_of_writes {c : Cmd V} {s : Nat} {k : Key} (w : c.writes s k) : s = c.sim := by
  cases c <;> simp_all [Cmd.writes, Cmd.sim]

theorem foldl_rebind_frame (s o : Nat) (re : Bool) (ks : List Key) (h : Heap V) :
    let h' := ks.foldl (rebind s o re) h
    h'.val = h.val ∧ h'.tb = h.tb ∧ (∀ x k, x ≠ s → h'.bnd x k = h.bnd x k) ∧
    (∀ k, h'.bnd s k = if k ∈ ks ∧ (h.bnd s k = .none ∨ re = true) then .to o else h.bnd s k) := by
  induction ks generalizing h with
  | nil => simp
  | cons k0 ks ih =>
    dsimp only [List.foldl_cons] at ih ⊢
    obtain ⟨i1, i2, i3, i4⟩ := ih (rebind s o re h k0)
    have r1 : (rebind s o re h k0).val = h.val := by unfold rebind; split <;> rfl
    have r2 : (rebind s o re h k0).tb = h.tb := by unfold rebind; split <;> rfl
    have r3 : ∀ x k, x ≠ s → (rebind s o re h k0).bnd x k = h.bnd x k := by
      intro x k hx; unfold rebind; split
      · simp [putBnd, hx]
      · rfl
    have r4 : ∀ k, (rebind s o re h k0).bnd s k = if k = k0 ∧ (h.bnd s k = .none ∨ re = true) then .to o else h.bnd s k := by
      intro k; unfold rebind
      by_cases hk : k = k0
      · subst hk; split <;> simp_all [putBnd]
      · split <;> simp [putBnd, hk]
    refine ⟨i1.trans r1, i2.trans r2, fun x k hx => (i3 x k hx).trans (r3 x k hx), fun k => ?_⟩
    rw [i4, r4]
    clear i1 i2 i3 i4 r1 r2 r3 r4 ih
    cases re <;> by_cases hk : k = k0 <;> by_cases hm : k ∈ ks <;> by_cases hc : h.bnd s k = .none <;>
      simp [hk, hm, hc] <;> simp_all

/-- Everything about a successful `_bound`. -/
theorem bind_spec {lim s o : Nat} {re : Bool} {h h' : Heap V} (e : Bound.bind A lim h s o re = some h') :
    (∃ tree, boundTree h lim o = some tree ∧ s ∈ tree ∧ h' = h) ∨
    (∃ h0 h1 : Heap V, h0.val = h.val ∧ h0.bnd = h.bnd ∧ (∀ x, h0.tb x = if x = s then some o else h.tb x) ∧
      Mut s (fun _ => True) h0 h1 ∧
      ((∀ k, h.bnd s k ≠ .broken) → h1 = h0) ∧
      h' = [Key.step, .total, .count, .delStates, .stateInput, .samples].foldl (rebind s o re) h1) := by
  unfold Bound.bind at e
  split at e
  · simp at e
  rename_i tree ht
  split at e
  · rename_i hm
    simp only [Option.some.injEq] at e
    exact Or.inl ⟨tree, ht, hm, e.symm⟩
  · right
    dsimp only at e
    refine ⟨{ h with
        dep := fun x => if x = o then (if s ∈ h.dep o then h.dep o else h.dep o ++ [s]) else h.dep x
        tb := fun x => if x = s then some o else h.tb x }, ?_⟩
    generalize e0 : ({ h with
        dep := fun x => if x = o then (if s ∈ h.dep o then h.dep o else h.dep o ++ [s]) else h.dep x
        tb := fun x => if x = s then some o else h.tb x } : Heap V) = h0 at e
    have a1 : h0.val = h.val := by rw [← e0]
    have a2 : h0.bnd = h.bnd := by rw [← e0]
    have a3 : ∀ x, h0.tb x = if x = s then some o else h.tb x := by rw [← e0]; exact fun _ => rfl
    have skip : ∀ (hh : Heap V) b k, hh.bnd s k ≠ .broken → bindKey A lim s o hh b k = some (hh, b) := by
      intro hh b k hk; unfold bindKey; rw [if_neg hk]
    split at e
    · simp at e
    rename_i h1 b1 e1
    split at e
    · simp at e
    rename_i h2 b2 e2
    split at e
    · simp at e
    rename_i h3 b3 e3
    simp only [Option.some.injEq] at e
    refine ⟨h3, a1, a2, a3, ?_, ?_, e.symm⟩
    · exact (mut_bindKey A e1).trans ((mut_bindKey A e2).trans (mut_bindKey A e3))
    · intro hb
      rw [← a2] at hb
      rw [skip _ _ _ (hb _)] at e1
      simp only [Option.some.injEq, Prod.mk.injEq] at e1
      obtain ⟨rfl, -⟩ := e1
      rw [skip _ _ _ (hb _)] at e2
      simp only [Option.some.injEq, Prod.mk.injEq] at e2
      obtain ⟨rfl, -⟩ := e2
      rw [skip _ _ _ (hb _)] at e3
      simp only [Option.some.injEq, Prod.mk.injEq] at e3
      exact e3.1.symm

/-- A statement leaves everything it does not write as it is. -/
theorem exec_frame {lim : Nat} {c : Cmd V} {h h' : Heap V} (e : exec A lim c h = some h') (s : Nat) (k : Key)
    (w : ¬ c.writes s k) : h'.bnd s k = h.bnd s k ∧ (h'.val s k = h.val s k ∨ ∃ t, h.bnd s k = .to t) := by
  cases c with
  | set s0 k0 v =>
    exact ((mut_setProp A e).frame s k).resolve_left w
  | readCount s0 =>
    simp only [exec, Option.map_eq_some_iff] at e
    obtain ⟨⟨m, h1⟩, e1, rfl⟩ := e
    exact ((mut_getCount A e1).frame s k).resolve_left w
  | bind s0 o re =>
    have hs : s ≠ s0 := w
    rcases bind_spec A e with ⟨tree, -, -, rfl⟩ | ⟨h0, h1, b1, b2, -, m, -, rfl⟩
    · exact ⟨rfl, Or.inl rfl⟩
    · obtain ⟨f1, -, f3, -⟩ := foldl_rebind_frame s0 o re [Key.step, .total, .count, .delStates, .stateInput, .samples] h1
      rw [f3 s k hs, f1]
      have := (m.frame s k).resolve_left (fun x => hs x.1)
      rwa [b1, b2] at this

/-! ### Hierarchies -/

/-- Every bound leads to a simulation of lower rank. -/
structure Hier (rank : Nat → Nat) (h : Heap V) : Prop where
  bnd : ∀ s k t, h.bnd s k = .to t → rank t < rank s
  tb : ∀ s t, h.tb s = some t → rank t < rank s

/-- Statements that bind only to simulations of lower rank. -/
def Cmd.Down (rank : Nat → Nat) : Cmd V → Prop
  | .bind s o _ => rank o < rank s
  | _ => True

theorem Hier.mut {rank : Nat → Nat} {h h' : Heap V} {c : Nat} {K : Key → Prop} (H : Hier rank h) (m : Mut c K h h') :
    Hier rank h' := by
  refine ⟨fun s k t e => ?_, fun s t e => ?_⟩
  · rcases m.weak s k with x | x
    · exact H.bnd s k t (x ▸ e)
    · rw [x] at e; simp at e
  · rcases m.tbw s with x | x
    · exact H.tb s t (x ▸ e)
    · rw [x] at e; simp at e

theorem Hier.exec {rank : Nat → Nat} {lim : Nat} {c : Cmd V} {h h' : Heap V} (H : Hier rank h) (d : c.Down rank)
    (e : exec A lim c h = some h') : Hier rank h' := by
  cases c with
  | set s0 k0 v => exact H.mut (mut_setProp A e)
  | readCount s0 =>
    simp only [Bound.exec, Option.map_eq_some_iff] at e
    obtain ⟨⟨m, h1⟩, e1, rfl⟩ := e
    exact H.mut (mut_getCount A e1)
  | bind s0 o re =>
    rcases bind_spec A e with ⟨tree, -, -, rfl⟩ | ⟨h0, h1, b1, b2, b3, m, -, rfl⟩
    · exact H
    · have H0 : Hier rank h0 := by
        refine ⟨fun s k t e => H.bnd s k t (b2 ▸ e), fun s t e => ?_⟩
        rw [b3] at e
        split at e
        · rename_i hs; simp only [Option.some.injEq] at e; rw [← e, hs]; exact d
        · exact H.tb s t e
      have H1 := H0.mut m
      obtain ⟨-, f2, f3, f4⟩ := foldl_rebind_frame s0 o re [Key.step, .total, .count, .delStates, .stateInput, .samples] h1
      refine ⟨fun s k t e => ?_, fun s t e => H1.tb s t (f2 ▸ e)⟩
      by_cases hs : s = s0
      · subst hs
        rw [f4] at e
        split at e
        · simp only [B.to.injEq] at e; rw [← e]; exact d
        · exact H1.bnd _ k t e
      · rw [f3 s k hs] at e; exact H1.bnd s k t e

theorem Hier.run {rank : Nat → Nat} {lim : Nat} (cs : List (Cmd V)) {h h' : Heap V} (H : Hier rank h)
    (d : ∀ c ∈ cs, c.Down rank) (e : run A lim cs h = some h') : Hier rank h' := by
  induction cs generalizing h with
  | nil => simp only [Bound.run, Option.some.injEq] at e; exact e ▸ H
  | cons c cs ih =>
    unfold Bound.run at e
    split at e
    · simp at e
    · rename_i h1 e1
      exact ih (H.exec A (d c (by simp)) e1) (fun c' hc => d c' (by simp [hc])) e

theorem Hier.fresh (rank : Nat → Nat) (one dflt : V) : Hier rank (fresh one dflt) :=
  ⟨fun _ _ _ e => by simp [Bound.fresh] at e, fun _ _ e => by simp [Bound.fresh] at e⟩

theorem run_frame {lim : Nat} (cs : List (Cmd V)) {h h' : Heap V} (e : run A lim cs h = some h') (s : Nat) (k : Key)
    (w : ∀ c ∈ cs, ¬ c.writes s k) : h'.bnd s k = h.bnd s k ∧ (h'.val s k = h.val s k ∨ ∃ t, h.bnd s k = .to t) := by
  induction cs generalizing h with
  | nil => simp only [Bound.run, Option.some.injEq] at e; subst e; exact ⟨rfl, Or.inl rfl⟩
  | cons c cs ih =>
    unfold Bound.run at e
    split at e
    · simp at e
    · rename_i h1 e1
      obtain ⟨a1, a2⟩ := exec_frame A e1 s k (w c (by simp))
      obtain ⟨b1, b2⟩ := ih e (fun c' hc => w c' (by simp [hc]))
      refine ⟨b1.trans a1, ?_⟩
      rcases b2 with b2 | ⟨t, ht⟩
      · rcases a2 with a2 | a2
        · exact Or.inl (b2.trans a2)
        · exact Or.inr a2
      · exact Or.inr ⟨t, a1 ▸ ht⟩

theorem readF_stable {rank : Nat → Nat} {h : Heap V} (H : Hier rank h) (k : Key) :
    ∀ (n s l1 l2 : Nat), rank s < n → n ≤ l1 → n ≤ l2 → (∃ v, readF h l1 s k = some v) ∧ readF h l1 s k = readF h l2 s k := by
  intro n
  induction n with
  | zero => intro s _ _ hs; omega
  | succ n ih =>
    intro s l1 l2 hs h1 h2
    obtain ⟨l1, rfl⟩ : ∃ m, l1 = m + 1 := ⟨l1 - 1, by omega⟩
    obtain ⟨l2, rfl⟩ : ∃ m, l2 = m + 1 := ⟨l2 - 1, by omega⟩
    simp only [readF]
    cases hb : h.bnd s k with
    | to t => exact ih t l1 l2 (by have := H.bnd s k t hb; omega) (by omega) (by omega)
    | none => exact ⟨⟨_, rfl⟩, rfl⟩
    | broken => exact ⟨⟨_, rfl⟩, rfl⟩

/-- A bound parameter reads as the one it is bound to. -/
theorem read_bound {rank : Nat → Nat} {h : Heap V} (H : Hier rank h) {lim s t : Nat} {k : Key} (hs : rank s < lim)
    (e : h.bnd s k = .to t) : readF h lim s k = readF h lim t k := by
  obtain ⟨l, rfl⟩ : ∃ m, lim = m + 1 := ⟨lim - 1, by omega⟩
  have := H.bnd s k t e
  have e1 : readF h (l + 1) s k = readF h l t k := by simp only [readF, e]
  rw [e1]
  exact (readF_stable H k (rank t + 1) t l (l + 1) (by omega) (by omega) (by omega)).2

/-- A parameter is read from simulations of at most its rank. -/
theorem readF_congr {rank : Nat → Nat} {h h' : Heap V} (H : Hier rank h) (k : Key) (P : Nat → Prop)
    (f : ∀ s, P s → h'.bnd s k = h.bnd s k ∧ (h'.val s k = h.val s k ∨ ∃ t, h.bnd s k = .to t))
    (cl : ∀ s t, P s → rank t < rank s → P t) : ∀ (lim s : Nat), P s → readF h' lim s k = readF h lim s k := by
  intro lim
  induction lim with
  | zero => intro s _; rfl
  | succ lim ih =>
    intro s hp
    obtain ⟨f1, f2⟩ := f s hp
    simp only [readF, f1]
    cases hb : h.bnd s k with
    | to t => exact ih t (cl s t hp (H.bnd s k t hb))
    | none => rcases f2 with f2 | ⟨t, ht⟩
              · rw [f2]
              · rw [hb] at ht; simp at ht
    | broken => rcases f2 with f2 | ⟨t, ht⟩
                · rw [f2]
                · rw [hb] at ht; simp at ht

theorem boundTree_some {rank : Nat → Nat} {h : Heap V} (H : Hier rank h) :
    ∀ (lim o : Nat), rank o < lim → ∃ tree, boundTree h lim o = some tree ∧ ∀ x ∈ tree, rank x < rank o := by
  intro lim
  induction lim with
  | zero => intro o ho; omega
  | succ lim ih =>
    intro o ho
    unfold boundTree
    cases hb : h.tb o with
    | none => exact ⟨[], rfl, by simp⟩
    | some b =>
      have := H.tb o b hb
      obtain ⟨tr, e, hr⟩ := ih b (by omega)
      refine ⟨b :: tr, by simp [e], ?_⟩
      intro x hx
      rcases List.mem_cons.mp hx with rfl | hx
      · exact this
      · have := hr x hx; omega

end Verif.Bound
