import Verif.Tree.Ham
import Verif.Toolbox.EvolutionProps
import Verif.Toolbox.States

/-!
# C68: composite Hamiltonians are Hermitian when their terms come with their adjoints
-/
namespace Verif.Tree
open Sys NMat Matrix

/-- The entries of a matrix as a square matrix of the given size. -/
def toOp (D : ℕ) (A : Mat) : Matrix (Fin D) (Fin D) ℂ := Matrix.of fun i j => A.entry i j

/-- The same for a Hamiltonian. -/
def Val.toOp (D : ℕ) (v : Val) : Matrix (Fin D) (Fin D) ℂ := Matrix.of fun i j => v.entry i j

theorem toOp_same {D : ℕ} {A B : Mat} (h : Same A B) (hr : A.rows = D) (hc : A.cols = D) : toOp D A = toOp D B := by
  ext i j
  exact h.2.2 i (by rw [hr]; exact i.2) j (by rw [hc]; exact j.2)

theorem same_of_toOp {D : ℕ} {A B : Mat} (h : toOp D A = toOp D B) (hr : A.rows = D) (hc : A.cols = D) (hr' : B.rows = D)
    (hc' : B.cols = D) : Same A B := by
  refine ⟨by rw [hr, hr'], by rw [hc, hc'], fun i hi j hj => ?_⟩
  have := congrFun (congrFun h ⟨i, by rw [← hr]; exact hi⟩) ⟨j, by rw [← hc]; exact hj⟩
  simpa [toOp] using this

theorem toOp_mul {D : ℕ} (A B : Mat) (hc : A.cols = D) : toOp D (mul A B) = toOp D A * toOp D B := by
  ext i j
  simp only [toOp, Matrix.of_apply, mul, Matrix.mul_apply, hc]
  rw [Finset.sum_range]

theorem toOp_hc {D : ℕ} (A : Mat) : toOp D (hc A) = (toOp D A)ᴴ := by
  ext i j
  simp [toOp, hc]

theorem toOp_smul {D : ℕ} (c : ℂ) (A : Mat) : toOp D (smul c A) = c • toOp D A := by
  ext i j
  simp [toOp, NMat.smul]

theorem toOp_powN {D : ℕ} (A : Mat) (hr : A.rows = D) (hc : A.cols = D) : ∀ n, toOp D (powN A n) = toOp D A ^ n
  | 0 => by
    ext i j
    simp [toOp, powN, ident, Matrix.one_apply, Fin.ext_iff]
  | n + 1 => by
    rw [powN, toOp_mul A _ hc, toOp_powN A hr hc n, pow_succ']

theorem hc_ident (n : ℕ) : hc (ident n) = ident n := by
  simp only [hc, ident, Mat.mk.injEq, true_and]
  funext i j
  by_cases h : i = j
  · simp [h]
  · simp [h, Ne.symm h]

/-- The adjoint of a power is the power of the adjoint. -/
theorem powN_adj {D : ℕ} {A A' : Mat} (h : Same (hc A) A') (hr : A.rows = D) (hc' : A.cols = D) (n : ℕ) :
    Same (hc (powN A n)) (powN A' n) := by
  have r' : A'.rows = D := by rw [← h.1]; exact hc'
  have c' : A'.cols = D := by rw [← h.2.1]; exact hr
  have e1 := powN_size A (by rw [hr, hc']) n
  have e2 := powN_size A' (by rw [r', c']) n
  refine same_of_toOp (D := D) ?_ (e1.2.trans hc') (e1.1.trans hr) (e2.1.trans r') (e2.2.trans c')
  rw [toOp_hc, toOp_powN A hr hc', toOp_powN A' r' c', ← toOp_same h hc' hr, toOp_hc, Matrix.conjTranspose_pow]

/-- The embedded operator of the adjoint is the adjoint of the embedded operator. -/
theorem dimInput_adj {root q : Sys} {p : List Nat} (hs : Shape root) (hp : Positions root) (hg : sysAt root p = some q)
    {oper oper' : ℕ → Mat} {order : ℕ} (hf : Fits q oper order) (h : Same (hc (oper q.dimension)) (oper' q.dimension)) :
    ∃ A A', dimInput q oper order = some A ∧ dimInput q oper' order = some A' ∧ Same (hc A) A' := by
  obtain ⟨h1, hr, hcl, ho⟩ := hf
  have hf' : Fits q oper' order := ⟨h1, by rw [← h.1]; exact hcl, by rw [← h.2.1]; exact hr, ho⟩
  obtain ⟨A, hA, _, _, hAs⟩ := C29_place hs hp hg oper order ⟨h1, hr, hcl, ho⟩
  obtain ⟨A', hA', _, _, hAs'⟩ := C29_place hs hp hg oper' order hf'
  refine ⟨A, A', hA, hA', (Same.hc hAs).trans (Same.trans ?_ hAs'.symm)⟩
  rw [kron_hc, kron_hc, hc_ident, hc_ident]
  exact ((Same.refl _).kron (powN_adj h hr hcl order)).kron (Same.refl _)

/-- Different places, neither inside the other. -/
def Apart (p p' : List Nat) : Prop := LeftOf p p' ∨ LeftOf p' p

/-- The second term is the adjoint of the first: adjoint operators on the same systems, same powers, conjugate frequency. The systems of a
coupling are different; the adjoint of a coupling may belong to another system. -/
inductive AdjTerm (root : Sys) : List Nat × Term → List Nat × Term → Prop
  | own {p : List Nat} {q : Sys} {oper oper' : ℕ → Mat} {order : ℕ} {freq freq' : ℂ} (hq : sysAt root p = some q)
      (h : Same (hc (oper q.dimension)) (oper' q.dimension)) (hw : freq' = star freq) :
      AdjTerm root (p, .own oper order freq) (p, .own oper' order freq')
  | coupling {p p' : List Nat} {parts parts' : List (List Nat × (ℕ → Mat) × ℕ)} {freq freq' : ℂ}
      (hd : parts.Pairwise fun x y => Apart x.1 y.1)
      (h : List.Forall₂ (fun x y => x.1 = y.1 ∧ x.2.2 = y.2.2 ∧ ∀ q, sysAt root x.1 = some q →
        Same (hc (x.2.1 q.dimension)) (y.2.1 q.dimension)) parts parts') (hw : freq' = star freq) :
      AdjTerm root (p, .coupling parts freq) (p', .coupling parts' freq')

theorem toOp_matMulInputs {D : ℕ} : ∀ (l : List Mat), (∀ A ∈ l, A.rows = D ∧ A.cols = D) → ∀ B, matMulInputs l = some B →
    toOp D B = (l.map (toOp D)).prod
  | [], _, B, h => by simp [matMulInputs] at h
  | [A], _, B, h => by
    obtain rfl : A = B := by simpa [matMulInputs] using h
    simp
  | A :: A2 :: r, hl, B, h => by
    obtain ⟨C, h1, h2, h3⟩ := matMulInputs_sized (A2 :: r) (by simp) fun X hX => hl X (by
      rcases List.mem_cons.1 hX with rfl | hX <;> simp [*])
    have ih := toOp_matMulInputs (A2 :: r) (fun X hX => hl X (by rcases List.mem_cons.1 hX with rfl | hX <;> simp [*])) C h1
    have hA := hl A (by simp)
    simp only [matMulInputs, h1, matmul] at h
    rw [if_pos (by rw [hA.2, h2])] at h
    obtain rfl := Option.some.inj h
    rw [toOp_mul A C hA.2, ih, List.map_cons (a := A), List.prod_cons (a := toOp D A)]

/-- The parts of a coupling and those of its adjoint. -/
theorem partMats_adj {root : Sys} (hs : Shape root) (hp : Positions root) :
    ∀ (parts parts' : List (List Nat × (ℕ → Mat) × ℕ)), (∀ x ∈ parts, ∃ q, sysAt root x.1 = some q ∧ Fits q x.2.1 x.2.2) →
      List.Forall₂ (fun x y => x.1 = y.1 ∧ x.2.2 = y.2.2 ∧ ∀ q, sysAt root x.1 = some q →
        Same (hc (x.2.1 q.dimension)) (y.2.1 q.dimension)) parts parts' →
      ∃ l l', partMats root parts = some l ∧ partMats root parts' = some l' ∧
        l.map (fun A => (toOp root.dimension A)ᴴ) = l'.map (toOp root.dimension) := by
  intro parts parts' hfit h
  induction h with
  | nil => exact ⟨[], [], rfl, rfl, rfl⟩
  | @cons x y xs ys hxy _ ih =>
    obtain ⟨l, l', hl, hl', e⟩ := ih fun z hz => hfit z (by simp [hz])
    obtain ⟨q, hq, hf⟩ := hfit x (by simp)
    obtain ⟨p, oper, order⟩ := x
    obtain ⟨p', oper', order'⟩ := y
    obtain ⟨h1, h2, h3⟩ := hxy
    dsimp only at h1 h2 h3 hq hf
    subst h1 h2
    obtain ⟨A, A', hA, hA', hs'⟩ := dimInput_adj hs hp hq hf (h3 q hq)
    obtain ⟨B, hB, hBr, hBc, _⟩ := C29_place hs hp hq oper order hf
    obtain rfl : A = B := Option.some.inj (hA.symm.trans hB)
    refine ⟨A :: l, A' :: l', by simp only [partMats, hq, hA, hl], by simp only [partMats, hq, hA', hl'], ?_⟩
    rw [List.map_cons, List.map_cons, e, ← toOp_hc, toOp_same hs' hBc hBr]

/-- Operators of systems at different places commute. -/
theorem partMats_commute {root : Sys} (hs : Shape root) (hp : Positions root) :
    ∀ (parts : List (List Nat × (ℕ → Mat) × ℕ)) (l : List Mat), (∀ x ∈ parts, ∃ q, sysAt root x.1 = some q ∧ Fits q x.2.1 x.2.2) →
      (parts.Pairwise fun x y => Apart x.1 y.1) → partMats root parts = some l →
      (l.map (toOp root.dimension)).Pairwise Commute ∧
      ∀ B ∈ l, ∃ x ∈ parts, ∃ q, sysAt root x.1 = some q ∧ dimInput q x.2.1 x.2.2 = some B
  | [], l, _, _, h => by
    obtain rfl : [] = l := by simpa [partMats] using h
    simp
  | (p, oper, order) :: r, l, hfit, hd, h => by
    obtain ⟨q, hq, hf⟩ := hfit (p, oper, order) (by simp)
    obtain ⟨A, hA, hAr, hAc, _⟩ := C29_place hs hp hq oper order hf
    obtain ⟨l1, hl1, _, hls⟩ := partMats_sized hs hp r fun x hx => hfit x (by simp [hx])
    simp only [partMats, hq, hA, hl1] at h
    obtain rfl := Option.some.inj h
    rw [List.pairwise_cons] at hd
    obtain ⟨i1, i2⟩ := partMats_commute hs hp r l1 (fun x hx => hfit x (by simp [hx])) hd.2 hl1
    refine ⟨?_, ?_⟩
    · rw [List.map_cons, List.pairwise_cons]
      refine ⟨fun Y hY => ?_, i1⟩
      obtain ⟨B, hB, rfl⟩ := List.mem_map.mp hY
      obtain ⟨x, hx, q', hq', hB'⟩ := i2 B hB
      obtain ⟨q'', hq'', hf'⟩ := hfit x (by simp [hx])
      obtain rfl : q' = q'' := Option.some.inj (hq'.symm.trans hq'')
      have key : Same (mul A B) (mul B A) := by
        rcases hd.1 x hx with hl | hl
        · obtain ⟨A1, B1, e1, e2, e3⟩ := C29_commute hs hp hl hq hq' oper x.2.1 order x.2.2 hf hf'
          obtain rfl : A = A1 := Option.some.inj (hA.symm.trans e1)
          obtain rfl : B = B1 := Option.some.inj (hB'.symm.trans e2)
          exact e3
        · obtain ⟨B1, A1, e1, e2, e3⟩ := C29_commute hs hp hl hq' hq x.2.1 oper x.2.2 order hf' hf
          obtain rfl : A = A1 := Option.some.inj (hA.symm.trans e2)
          obtain rfl : B = B1 := Option.some.inj (hB'.symm.trans e1)
          exact e3.symm
      have hBs := hls B hB
      have := toOp_same key hAr hBs.2
      rw [toOp_mul A B hAc, toOp_mul B A hBs.2] at this
      exact this
    · intro B hB
      rcases List.mem_cons.mp hB with rfl | hB
      · exact ⟨_, by simp, q, hq, hA⟩
      · obtain ⟨x, hx, h⟩ := i2 B hB
        exact ⟨x, by simp [hx], h⟩

/-- **C68.** The matrix of the adjoint term is the adjoint matrix. -/
theorem C68_term_adjoint {root : Sys} (hs : Shape root) (hp : Positions root) {c c' : List Nat × Term}
    (hf : TermFits root c.1 c.2) (h : AdjTerm root c c') : ∃ A A', termMat root c.1 c.2 = some A ∧ termMat root c'.1 c'.2 = some A' ∧
      toOp root.dimension A' = (toOp root.dimension A)ᴴ := by
  cases h with
  | @own p q oper oper' order freq freq' hq h hw =>
    subst hw
    obtain ⟨q', hq', hf⟩ := hf
    obtain rfl : q = q' := Option.some.inj (hq.symm.trans hq')
    obtain ⟨A, A', hA, hA', hs'⟩ := dimInput_adj hs hp hq hf h
    obtain ⟨B, hB, hBr, hBc, _⟩ := C29_place hs hp hq oper order hf
    obtain rfl : A = B := Option.some.inj (hA.symm.trans hB)
    refine ⟨smul freq A, smul (star freq) A', by simp [termMat, hq, hA], by simp [termMat, hq, hA'], ?_⟩
    rw [toOp_smul, toOp_smul, Matrix.conjTranspose_smul, ← toOp_hc, toOp_same hs' hBc hBr]
  | @coupling p p' parts parts' freq freq' hd h hw =>
    subst hw
    obtain ⟨hne, hparts⟩ := hf
    obtain ⟨l, l', hl, hl', e⟩ := partMats_adj hs hp parts parts' hparts h
    obtain ⟨l1, hl1, hlen, hls⟩ := partMats_sized hs hp parts hparts
    obtain rfl : l = l1 := Option.some.inj (hl.symm.trans hl1)
    have hparts' : ∀ x ∈ parts', ∃ q, sysAt root x.1 = some q ∧ Fits q x.2.1 x.2.2 := by
      clear hl hl' e hl1 hlen hls hd hne
      induction h with
      | nil => simp
      | @cons x y xs ys hxy _ ih =>
        intro z hz
        rcases List.mem_cons.mp hz with rfl | hz
        · obtain ⟨q, hq, f1, f2, f3, f4⟩ := hparts x (by simp)
          obtain ⟨h1, h2, h3⟩ := hxy
          have h3 := h3 q hq
          exact ⟨q, by rw [← h1]; exact hq, f1, by rw [← h3.1]; exact f3, by rw [← h3.2.1]; exact f2, by rw [← h2]; exact f4⟩
        · exact ih (fun x hx => hparts x (by simp [hx])) z hz
    obtain ⟨l1', hl1', hlen', hls'⟩ := partMats_sized hs hp parts' hparts'
    obtain rfl : l' = l1' := Option.some.inj (hl'.symm.trans hl1')
    have hne' : l ≠ [] := by
      rintro rfl
      exact hne (List.length_eq_zero_iff.1 hlen.symm)
    have hne'' : l' ≠ [] := by
      rintro rfl
      have := congrArg List.length e
      simp at this
      exact hne' this
    obtain ⟨B, hB, hBr, hBc⟩ := matMulInputs_sized l hne' hls
    obtain ⟨B', hB', _, _⟩ := matMulInputs_sized l' hne'' hls'
    refine ⟨smul freq B, smul (star freq) B', by simp [termMat, hl, hB], by simp [termMat, hl', hB'], ?_⟩
    rw [toOp_smul, toOp_smul, Matrix.conjTranspose_smul, toOp_matMulInputs l hls B hB, toOp_matMulInputs l' hls' B' hB', ← e,
      Matrix.conjTranspose_list_prod, List.map_map]
    congr 1
    have hc := (partMats_commute hs hp parts l hparts hd hl).1
    have hperm : (l.map fun A => (toOp root.dimension A)ᴴ).Perm ((l.map fun A => (toOp root.dimension A)ᴴ).reverse) :=
      (List.reverse_perm _).symm
    refine hperm.prod_eq' ?_
    rw [List.pairwise_map] at hc ⊢
    exact hc.imp fun {A B} hAB => by
      have h1 : toOp root.dimension A * toOp root.dimension B = toOp root.dimension B * toOp root.dimension A := hAB
      have := congrArg Matrix.conjTranspose h1
      rw [Matrix.conjTranspose_mul, Matrix.conjTranspose_mul] at this
      exact this.symm

/-- Every term comes with its adjoint: the adjoints of the terms, in some order, are the terms. -/
def AdjClosed (root : Sys) (l : List (List Nat × Term)) : Prop := ∃ l', l'.Perm l ∧ List.Forall₂ (AdjTerm root) l l'

theorem toOp_hamil {root : Sys} {v : Val} {l : List (List Nat × Term)} (D : ℕ)
    (h : ∀ i j, v.entry i j = (l.map (termEntry root i j)).sum) :
    v.toOp D = (l.map fun c => Matrix.of fun i j : Fin D => termEntry root i j c).sum := by
  ext i j
  rw [Val.toOp, Matrix.of_apply, h]
  clear h
  induction l with
  | nil => rfl
  | cons c l ih => rw [List.map_cons, List.sum_cons, ih, List.map_cons, List.sum_cons]; rfl

/-- **C68.** The Hamiltonian of a composite, nested to any depth, is Hermitian when every term comes with its adjoint. -/
theorem C68_hermitian {root : Sys} (hs : Shape root) (hp : Positions root) (T : List Nat → List Term)
    (hT : ∀ c ∈ contributions T (paths [] root), TermFits root c.1 c.2) (ha : AdjClosed root (contributions T (paths [] root))) :
    ∃ v, hamil root T [] root = some v ∧ (v.toOp root.dimension).IsHermitian := by
  obtain ⟨v, hv, _, he⟩ := C29_hamiltonian hs hp T hT
  refine ⟨v, hv, ?_⟩
  obtain ⟨l', hperm, hf⟩ := ha
  have key : ∀ (l l' : List (List Nat × Term)), (∀ c ∈ l, TermFits root c.1 c.2) → List.Forall₂ (AdjTerm root) l l' →
      ((l.map fun c => Matrix.of fun i j : Fin root.dimension => termEntry root i j c).sum)ᴴ =
        (l'.map fun c => Matrix.of fun i j : Fin root.dimension => termEntry root i j c).sum := by
    intro l l' hl h
    induction h with
    | nil => simp
    | @cons c c' r r' hc _ ih =>
      obtain ⟨A, A', hA, hA', e⟩ := C68_term_adjoint hs hp (hl c (by simp)) hc
      rw [List.map_cons, List.sum_cons, List.map_cons, List.sum_cons, Matrix.conjTranspose_add, ih fun x hx => hl x (by simp [hx])]
      congr 1
      simp only [termEntry, hA, hA']
      exact e.symm
  rw [Matrix.IsHermitian, toOp_hamil root.dimension he, key _ l' hT hf]
  exact (hperm.map _).sum_eq

/-- **C68.** In particular when all frequencies are real, all operators Hermitian and no coupling uses a system twice. -/
theorem C68_selfadjoint {root : Sys} (hs : Shape root) (hp : Positions root) (T : List Nat → List Term)
    (hT : ∀ c ∈ contributions T (paths [] root), TermFits root c.1 c.2)
    (ha : ∀ c ∈ contributions T (paths [] root), AdjTerm root c c) :
    ∃ v, hamil root T [] root = some v ∧ (v.toOp root.dimension).IsHermitian :=
  C68_hermitian hs hp T hT ⟨_, List.Perm.refl _, List.forall₂_same.2 ha⟩

/-- **C68.** The free evolution of such a composite is unitary at every time, and every trajectory keeps its norm. -/
theorem C68_unitary {root : Sys} (hs : Shape root) (hp : Positions root) (T : List Nat → List Term)
    (hT : ∀ c ∈ contributions T (paths [] root), TermFits root c.1 c.2) (ha : AdjClosed root (contributions T (paths [] root))) :
    ∃ v, hamil root T [] root = some v ∧
      (∀ t : ℝ, Toolbox.hc (Toolbox.unitaryOp (v.toOp root.dimension) t) * Toolbox.unitaryOp (v.toOp root.dimension) t = 1) ∧
      ∀ (times : List ℝ) (psi : Toolbox.Ket root.dimension),
        let out : Toolbox.Ket root.dimension :=
          times.foldl (fun (s : Toolbox.Ket root.dimension) t => Toolbox.unitaryOp (v.toOp root.dimension) t * s) psi
        Toolbox.hc out * out = Toolbox.hc psi * psi := by
  obtain ⟨v, hv, hh⟩ := C68_hermitian hs hp T hT ha
  refine ⟨v, hv, fun t => (Toolbox.C41_unitary _ hh t).1, fun times psi => ?_⟩
  have := Toolbox.C41_norm_kept (times.map fun t => (v.toOp root.dimension, t)) (by simpa using fun _ _ => hh) psi
  simpa [List.foldl_map] using this

theorem commute_unitaryOp {n : ℕ} {H Q : Toolbox.Op n} (h : H * Q = Q * H) (t : ℝ) :
    Q * Toolbox.unitaryOp H t = Toolbox.unitaryOp H t * Q := by
  rw [Toolbox.unitaryOp]
  refine Toolbox.mul_exp_of_intertwine Q _ _ ?_
  rw [Matrix.mul_smul, Matrix.mul_smul, Matrix.smul_mul, Matrix.smul_mul, h]

/-- **C68.** An observable that commutes with the matrix of every term keeps its expectation value along every trajectory; the energy is
an example. -/
theorem C68_conserved {root : Sys} (hs : Shape root) (hp : Positions root) (T : List Nat → List Term)
    (hT : ∀ c ∈ contributions T (paths [] root), TermFits root c.1 c.2) (ha : AdjClosed root (contributions T (paths [] root)))
    (h1 : root.dimension ≠ 1) (Q : Toolbox.Op root.dimension) :
    ∃ v, hamil root T [] root = some v ∧
      ((Q = v.toOp root.dimension ∨ ∀ c ∈ contributions T (paths [] root), ∀ A, termMat root c.1 c.2 = some A →
          toOp root.dimension A * Q = Q * toOp root.dimension A) →
        ∀ (times : List ℝ) (psi : Toolbox.Ket root.dimension),
          let out : Toolbox.Ket root.dimension :=
            times.foldl (fun (s : Toolbox.Ket root.dimension) t => Toolbox.unitaryOp (v.toOp root.dimension) t * s) psi
          Toolbox.expectation Q (.ket out) = Toolbox.expectation Q (.ket psi)) := by
  obtain ⟨v, hv, _, he⟩ := C29_hamiltonian hs hp T hT
  obtain ⟨v', hv', hu, -⟩ := C68_unitary hs hp T hT ha
  obtain rfl : v = v' := Option.some.inj (hv.symm.trans hv')
  refine ⟨v, hv, fun hQ times => ?_⟩
  have hc : v.toOp root.dimension * Q = Q * v.toOp root.dimension := by
    rcases hQ with rfl | hQ
    · rfl
    · rw [toOp_hamil root.dimension he]
      generalize contributions T (paths [] root) = l at hT hQ
      clear he ha
      induction l with
      | nil => simp
      | cons c l ih =>
        obtain ⟨A, hA, -⟩ := termMat_sized hs hp c.1 c.2 (hT c (by simp))
        rw [List.map_cons, List.sum_cons, Matrix.add_mul, Matrix.mul_add,
          ih (fun x hx => hT x (by simp [hx])) fun x hx => hQ x (by simp [hx])]
        congr 1
        have := hQ c (by simp) A hA
        simp only [termEntry, hA]
        exact this
  have one : ∀ (t : ℝ) (psi : Toolbox.Ket root.dimension),
      Toolbox.expectationRaw Q (.ket (Toolbox.unitaryOp (v.toOp root.dimension) t * psi)) = Toolbox.expectationRaw Q (.ket psi) := by
    intro t psi
    have e1 := commute_unitaryOp hc t
    have e2 := hu t
    simp only [Toolbox.expectationRaw, Toolbox.QState.asMat, if_pos h1, Toolbox.outerProd, Toolbox.hc_eq,
      Matrix.conjTranspose_mul] at e2 ⊢
    generalize Toolbox.unitaryOp (v.toOp root.dimension) t = U at e1 e2
    rw [Option.getD_none, Option.getD_none, Matrix.conjTranspose_mul]
    rw [show Q * (U * psi * (psiᴴ * Uᴴ)) = (Q * U) * (psi * psiᴴ) * Uᴴ by simp only [Matrix.mul_assoc], e1, Matrix.trace_mul_comm,
      show Uᴴ * (U * Q * (psi * psiᴴ)) = (Uᴴ * U) * (Q * (psi * psiᴴ)) by simp only [Matrix.mul_assoc], e2, Matrix.one_mul]
  induction times with
  | nil => exact fun psi => rfl
  | cons t times ih =>
    intro psi
    refine (ih (Toolbox.unitaryOp (v.toOp root.dimension) t * psi)).trans ?_
    simp only [Toolbox.expectation, one]

/-! ## Witnesses -/

/-- A two by two operator, for systems of dimension two. -/
def op2 (a b c d : ℂ) : ℕ → Mat := fun _ => ⟨2, 2, fun i j => if i = 0 then (if j = 0 then a else b) else (if j = 0 then c else d)⟩

theorem op2_adj (a b c d : ℂ) (n : ℕ) : Same (hc (op2 a b c d n)) (op2 (star a) (star c) (star b) (star d) n) := by
  refine ⟨rfl, rfl, fun i _ j _ => ?_⟩
  simp only [hc, op2]
  split_ifs <;> rfl

/-- Two qubits. -/
def pair : Sys := node (some true) 1 1 1 [node (some false) 2 1 2 [], node (some false) 2 2 1 []]

theorem pair_wf : Shape pair ∧ Positions pair := (wf_iff pair).1 (by simp [pair, WF, WFL, dimension, dimProd])

theorem pair_fits (a b c d : ℂ) (i : ℕ) (hi : i < 2) : ∃ q, sysAt pair [i] = some q ∧ q.dimension = 2 ∧ Fits q (op2 a b c d) 1 := by
  interval_cases i <;> exact ⟨_, rfl, rfl, by decide, rfl, rfl, by decide⟩

/-- The exchange coupling of two qubits, both parts, and the energy of the first qubit. -/
noncomputable def exchange (w g : ℝ) : List Nat → List Term
  | [] => [.coupling [([0], op2 0 1 0 0, 1), ([1], op2 0 0 1 0, 1)] g, .coupling [([0], op2 0 0 1 0, 1), ([1], op2 0 1 0 0, 1)] g]
  | [0] => [.own (op2 1 0 0 (-1)) 1 w]
  | _ => []

theorem exchange_terms (w g : ℝ) : contributions (exchange w g) (paths [] pair) =
    [([0], .own (op2 1 0 0 (-1)) 1 w), ([], .coupling [([0], op2 0 1 0 0, 1), ([1], op2 0 0 1 0, 1)] g),
      ([], .coupling [([0], op2 0 0 1 0, 1), ([1], op2 0 1 0 0, 1)] g)] := rfl

theorem exchange_fits (w g : ℝ) : ∀ c ∈ contributions (exchange w g) (paths [] pair), TermFits pair c.1 c.2 := by
  intro c hc
  rw [exchange_terms] at hc
  have f : ∀ (a b c d : ℂ) (i : ℕ), i < 2 → ∃ q, sysAt pair [i] = some q ∧ Fits q (op2 a b c d) 1 := fun a b c d i hi => by
    obtain ⟨q, h, _, h'⟩ := pair_fits a b c d i hi
    exact ⟨q, h, h'⟩
  fin_cases hc
  · exact f _ _ _ _ 0 (by decide)
  · refine ⟨by simp, fun x hx => ?_⟩
    fin_cases hx
    · exact f _ _ _ _ 0 (by decide)
    · exact f _ _ _ _ 1 (by decide)
  · refine ⟨by simp, fun x hx => ?_⟩
    fin_cases hx
    · exact f _ _ _ _ 0 (by decide)
    · exact f _ _ _ _ 1 (by decide)

/-- The two couplings are the adjoints of each other. -/
theorem exchange_closed (w g : ℝ) : AdjClosed pair (contributions (exchange w g) (paths [] pair)) := by
  rw [exchange_terms]
  refine ⟨_, (List.Perm.swap _ _ _).cons _, ?_⟩
  have ap : Apart [0] [1] := .inl ⟨[], 0, [], 1, [], rfl, rfl, by decide⟩
  refine .cons (.own (q := node (some false) 2 1 2 []) rfl ?_ (by simp)) (.cons (.coupling (by simpa using ap) (.cons ⟨rfl, rfl, ?_⟩
    (.cons ⟨rfl, rfl, ?_⟩ .nil)) (by simp)) (.cons (.coupling (by simpa using ap) (.cons ⟨rfl, rfl, ?_⟩
    (.cons ⟨rfl, rfl, ?_⟩ .nil)) (by simp)) .nil))
  · simpa using op2_adj 1 0 0 (-1) (node (some false) 2 1 2 []).dimension
  · exact fun q _ => by simpa using op2_adj 0 1 0 0 q.dimension
  · exact fun q _ => by simpa using op2_adj 0 0 1 0 q.dimension
  · exact fun q _ => by simpa using op2_adj 0 0 1 0 q.dimension
  · exact fun q _ => by simpa using op2_adj 0 1 0 0 q.dimension

example (w g : ℝ) : ∃ v, hamil pair (exchange w g) [] pair = some v ∧ (v.toOp 4).IsHermitian :=
  C68_hermitian pair_wf.1 pair_wf.2 _ (exchange_fits w g) (exchange_closed w g)

/-- The exchange coupling keeps the total spin. -/
example (w g : ℝ) : ∃ v, hamil pair (exchange w g) [] pair = some v ∧ ∀ (times : List ℝ) (psi : Toolbox.Ket 4),
    let out : Toolbox.Ket 4 := times.foldl (fun (s : Toolbox.Ket 4) t => Toolbox.unitaryOp (v.toOp 4) t * s) psi
    Toolbox.expectation (Matrix.diagonal ![2, 0, 0, -2] : Toolbox.Op 4) (.ket out) =
      Toolbox.expectation (Matrix.diagonal ![2, 0, 0, -2] : Toolbox.Op 4) (.ket psi) := by
  obtain ⟨v, hv, h⟩ := C68_conserved pair_wf.1 pair_wf.2 _ (exchange_fits w g) (exchange_closed w g) (by decide)
    (Matrix.diagonal ![2, 0, 0, -2] : Toolbox.Op 4)
  refine ⟨v, hv, h (.inr fun c hc A hA => ?_)⟩
  rw [exchange_terms] at hc
  have aux : ∀ B : Mat, A = B → toOp 4 B * (Matrix.diagonal ![2, 0, 0, -2] : Toolbox.Op 4) = Matrix.diagonal ![2, 0, 0, -2] * toOp 4 B →
      toOp 4 A * (Matrix.diagonal ![2, 0, 0, -2] : Toolbox.Op 4) = Matrix.diagonal ![2, 0, 0, -2] * toOp 4 A := fun B e h => e ▸ h
  fin_cases hc
  · refine aux (NMat.smul w (kron (op2 1 0 0 (-1) 2) (ident 2))) (Option.some.inj hA).symm ?_
    ext i j
    fin_cases i <;> fin_cases j <;> simp [toOp, NMat.smul, op2, kron, ident, mul_comm]
  · refine aux (NMat.smul g (mul (kron (op2 0 1 0 0 2) (ident 2)) (kron (ident 2) (op2 0 0 1 0 2)))) (Option.some.inj hA).symm ?_
    ext i j
    fin_cases i <;> fin_cases j <;> simp [toOp, NMat.smul, NMat.mul, op2, kron, ident, Finset.sum_range_succ]
  · refine aux (NMat.smul g (mul (kron (op2 0 0 1 0 2) (ident 2)) (kron (ident 2) (op2 0 1 0 0 2)))) (Option.some.inj hA).symm ?_
    ext i j
    fin_cases i <;> fin_cases j <;> simp [toOp, NMat.smul, NMat.mul, op2, kron, ident, Finset.sum_range_succ]

/-- A coupling that names a system twice. -/
noncomputable def twice : List Nat → List Term
  | [] => [.coupling [([0], op2 0 1 1 0, 1), ([0], op2 0 (-Complex.I) Complex.I 0, 1)] 1]
  | _ => []

/-- **C68** needs different systems: the product of two Hermitian operators of the same system (here `sigmax` and `sigmay`) with a real
frequency is accepted and gives a Hamiltonian that is not Hermitian. -/
theorem C68_same_system_twice : (∀ c ∈ contributions twice (paths [] pair), TermFits pair c.1 c.2) ∧
    ∃ v, hamil pair twice [] pair = some v ∧ ¬ (v.toOp 4).IsHermitian := by
  refine ⟨fun c hc => ?_, .mat (NMat.smul 1 (mul (kron (op2 0 1 1 0 2) (ident 2))
    (kron (op2 0 (-Complex.I) Complex.I 0 2) (ident 2)))), rfl, fun h => ?_⟩
  · have hc' : c ∈ [(([] : List Nat), Term.coupling [([0], op2 0 1 1 0, 1), ([0], op2 0 (-Complex.I) Complex.I 0, 1)] 1)] := hc
    rw [List.mem_singleton] at hc'
    subst hc'
    refine ⟨by simp, fun x hx => ?_⟩
    fin_cases hx <;> exact ⟨_, rfl, by decide, rfl, rfl, by decide⟩
  · have := congrFun (congrFun h 0) 0
    simp [Val.toOp, Val.entry, NMat.smul, NMat.mul, op2, kron, ident, Finset.sum_range_succ] at this
    have := congrArg Complex.im this
    norm_num at this

/-- One half of the exchange coupling. -/
noncomputable def halfExchange : List Nat → List Term
  | [] => [.coupling [([0], op2 0 1 0 0, 1), ([1], op2 0 0 1 0, 1)] 1]
  | _ => []

/-- **C68** needs the adjoints: the code does not add the Hermitian conjugate of a coupling. -/
theorem C68_adjoint_not_added : ∃ v, hamil pair halfExchange [] pair = some v ∧ ¬ (v.toOp 4).IsHermitian := by
  refine ⟨.mat (NMat.smul 1 (mul (kron (op2 0 1 0 0 2) (ident 2)) (kron (ident 2) (op2 0 0 1 0 2)))), rfl, fun h => ?_⟩
  have := congrFun (congrFun h 1) 2
  simp [Val.toOp, Val.entry, NMat.smul, NMat.mul, op2, kron, ident, Finset.sum_range_succ] at this

/-- A complex frequency. -/
noncomputable def lossy : List Nat → List Term
  | [0] => [.own (op2 1 0 0 (-1)) 1 Complex.I]
  | _ => []

/-- **C68** needs real frequencies: a complex one is accepted. -/
theorem C68_complex_frequency : ∃ v, hamil pair lossy [] pair = some v ∧ ¬ (v.toOp 4).IsHermitian := by
  refine ⟨.mat (NMat.smul Complex.I (kron (op2 1 0 0 (-1) 2) (ident 2))), rfl, fun h => ?_⟩
  have := congrArg Complex.im (congrFun (congrFun h 0) 0)
  simp [Val.toOp, Val.entry, NMat.smul, op2, kron, ident] at this
  norm_num at this

end Verif.Tree
