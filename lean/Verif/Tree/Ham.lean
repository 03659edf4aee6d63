import Verif.Tree.Props
import Verif.NMat.Props

/-!
# C29: operators and Hamiltonians of composite systems

Model of `QTerm._dimInput`, `_constructMatrices`, `totalHamiltonian` (`QTerms.py:232-318`) and of the Hamiltonian of a quantum system
(`QSystem.py:193-216`), on the structure of `Verif.Tree.Model` and matrices with run-time shapes (`Verif.NMat`).
Simplifications: the terms of the systems are given as a function of the path; an operator is a function from the dimension of the
system to a matrix (for the spin operators the code first computes `j = (dimension - 1) / 2`, for the Pauli operators the argument is
ignored); matrices are recomputed, the caches are the subject of `Verif.Flags`; terms without an operator are left out by the code
and are simply absent here.
-/
namespace Verif.Tree
open Sys NMat

/-- `A @ B`, `none` when the shapes do not match. -/
def matmul (A B : Mat) : Option Mat := if A.cols = B.rows then some (mul A B) else none

/-- `_matPower` (`linearAlgebra.py:405-446`); `none` is the failing assertion `power > 0` or a shape error. -/
def matPower (A : Mat) : ℕ → Option Mat
  | 0 => none
  | 1 => some A
  | n + 2 => match matPower A (n + 1) with | none => none | some B => matmul A B

/-- `_matMulInputs` (`linearAlgebra.py:367-403`); `none` for no argument (`IndexError`) or a shape error. -/
def matMulInputs : List Mat → Option Mat
  | [] => none
  | [A] => some A
  | A :: B :: r => match matMulInputs (B :: r) with | none => none | some C => matmul A C

/-- `QTerm._dimInput` (`QTerms.py:280-302`); `none`: the system has no dimension yet (`ValueError`), or a bad power. -/
def dimInput (q : Sys) (oper : ℕ → Mat) (order : ℕ) : Option Mat :=
  if q.dimension = 1 then none
  else match matPower (oper q.dimension) order with
    | none => none
    | some A => compositeOp A q.before q.after

/-- A term of a system: on the system itself, or a coupling, the ordered product of operators of systems contained in it. -/
inductive Term where
  | own (oper : ℕ → Mat) (order : ℕ) (freq : ℂ)
  | coupling (parts : List (List Nat × (ℕ → Mat) × ℕ)) (freq : ℂ)

/-- The matrices of the parts of a coupling. -/
def partMats (root : Sys) : List (List Nat × (ℕ → Mat) × ℕ) → Option (List Mat)
  | [] => some []
  | (p, oper, order) :: r =>
    match sysAt root p with
    | none => none
    | some q => match dimInput q oper order, partMats root r with | some A, some l => some (A :: l) | _, _ => none

/-- `totalHamiltonian` of a term of the system at path `p` (`QTerms.py:232-258, 304-318`): frequency times free matrix. -/
def termMat (root : Sys) (p : List Nat) : Term → Option Mat
  | .own oper order freq =>
    match sysAt root p with
    | none => none
    | some q => match dimInput q oper order with | none => none | some A => some (smul freq A)
  | .coupling parts freq =>
    match partMats root parts with
    | none => none
    | some l => match matMulInputs l with | none => none | some A => some (smul freq A)

/-- A value of `sum(...)`: the integer 0 it starts from, or a matrix. -/
inductive Val where
  | zero
  | mat (A : Mat)

/-- Addition of such values; `none` when the shapes differ. -/
def addV : Val → Val → Option Val
  | .zero, v => some v
  | v, .zero => some v
  | .mat A, .mat B => if A.rows = B.rows ∧ A.cols = B.cols then some (.mat (add A B)) else none

/-- `sum(term.totalHamiltonian for term in terms)` (`QSystem.py:211-216`). -/
def termSum (root : Sys) (p : List Nat) : List Term → Val → Option Val
  | [], acc => some acc
  | t :: r, acc =>
    match termMat root p t with
    | none => none
    | some A => match addV acc (.mat A) with | none => none | some acc' => termSum root p r acc'

mutual
/-- `totalHamiltonian` of the system at path `p` (`QSystem.py:200-208`): sub-systems, then terms. -/
def hamil (root : Sys) (T : List Nat → List Term) (p : List Nat) : Sys → Option Val
  | node _ _ _ _ s =>
    match hamilSubs root T p 0 s .zero with
    | none => none
    | some a => match termSum root p (T p) .zero with | none => none | some b => addV a b
/-- `sum(sub.totalHamiltonian for sub in subSys)` (`QSystem.py:193-198`). -/
def hamilSubs (root : Sys) (T : List Nat → List Term) (p : List Nat) (i : ℕ) : List Sys → Val → Option Val
  | [], acc => some acc
  | q :: r, acc =>
    match hamil root T (p ++ [i]) q with
    | none => none
    | some h => match addV acc h with | none => none | some acc' => hamilSubs root T p (i + 1) r acc'
end

/-! ### Specification -/

mutual
/-- The paths of all systems in the structure. -/
def paths (p : List Nat) : Sys → List (List Nat)
  | node _ _ _ _ s => pathsL p 0 s ++ [p]
/-- The same for the sub-systems. -/
def pathsL (p : List Nat) (i : ℕ) : List Sys → List (List Nat)
  | [] => []
  | q :: r => paths (p ++ [i]) q ++ pathsL p (i + 1) r
end

/-- All terms of all systems of the structure. -/
def contributions (T : List Nat → List Term) (ps : List (List Nat)) : List (List Nat × Term) :=
  ps.flatMap fun p => (T p).map fun t => (p, t)

/-- Entry of a value (the integer 0 acts as the zero matrix). -/
def Val.entry : Val → ℕ → ℕ → ℂ
  | .zero, _, _ => 0
  | .mat A, i, j => A.entry i j

/-- Entry of the matrix of a term. -/
def termEntry (root : Sys) (i j : ℕ) (c : List Nat × Term) : ℂ :=
  match termMat root c.1 c.2 with | none => 0 | some A => A.entry i j

/-- The `n`-fold product. -/
def powN (A : Mat) : ℕ → Mat
  | 0 => ident A.cols
  | n + 1 => mul A (powN A n)

/-- The operator is meant for this system: a square matrix of the size of the system, with positive power. -/
def Fits (q : Sys) (oper : ℕ → Mat) (order : ℕ) : Prop :=
  q.dimension ≠ 1 ∧ (oper q.dimension).rows = q.dimension ∧ (oper q.dimension).cols = q.dimension ∧ 0 < order

/-- The system at `p` stands to the left of the system at `p'`. -/
def LeftOf (p p' : List Nat) : Prop := ∃ c i r j r', p = c ++ i :: r ∧ p' = c ++ j :: r' ∧ i < j

/-! ### The embedded operator -/

theorem matPower_same (A : Mat) (h : A.rows = A.cols) : ∀ n, ∃ B, matPower A (n + 1) = some B ∧ Same B (powN A (n + 1)) ∧
    B.rows = A.rows ∧ B.cols = A.cols
  | 0 => ⟨A, rfl, (mul_ident_right A).symm, rfl, rfl⟩
  | n + 1 => by
    obtain ⟨B, h1, h2, h3, h4⟩ := matPower_same A h n
    refine ⟨mul A B, ?_, ?_, rfl, h4⟩
    · simp only [matPower, h1, matmul]
      rw [if_pos (by rw [h3, h])]
    · exact Same.mul (Same.refl A) h2 (by rw [h3, h])

/-- Total dimension from the positions. -/
theorem total_dimension {root q : Sys} {p : List Nat} (hw : WF 1 1 root) (hg : sysAt root p = some q) :
    q.before * q.dimension * q.after = root.dimension := by
  have h := get_wf 1 1 p root q hw hg
  have hd := dims_modifyAt some p root root q (wf_shape _ _ _ hw) (modifyAt_some p root q hg) hg
  rw [wf_before h, wf_after h, dimension_eq root, hd, dimension_eq q]
  simp [List.prod_append, mul_assoc]

/-- **C29.** The matrix of an operator of the system at path `p` of a consistent structure is `identity x operator^order x identity`,
where the identities have the dimensions of everything to the left and to the right of the system, and its size is the dimension of
the whole. -/
theorem C29_place {root q : Sys} {p : List Nat} (hs : Shape root) (hp : Positions root) (hg : sysAt root p = some q)
    (oper : ℕ → Mat) (order : ℕ) (hf : Fits q oper order) :
    ∃ A, dimInput q oper order = some A ∧ A.rows = root.dimension ∧ A.cols = root.dimension ∧
      Same A (kron (kron (ident (leftOf root p).prod) (powN (oper q.dimension) order)) (ident (rightOf root p).prod)) := by
  have hw := (wf_iff root).2 ⟨hs, hp⟩
  obtain ⟨h1, hr, hc, ho⟩ := hf
  obtain ⟨n, rfl⟩ := Nat.exists_eq_succ_of_ne_zero (Nat.pos_iff_ne_zero.1 ho)
  obtain ⟨B, hB, hBs, hBr, hBc⟩ := matPower_same (oper q.dimension) (by rw [hr, hc]) n
  have hqw := get_wf 1 1 p root q hw hg
  have hpos := hp p q hg
  have htot := total_dimension hw hg
  have hD : 0 < root.dimension := wf_pos hw
  have hb : 0 < q.before := Nat.pos_of_ne_zero (by intro h; rw [h] at htot; simp at htot; omega)
  have ha : 0 < q.after := Nat.pos_of_ne_zero (by intro h; rw [h] at htot; simp at htot; omega)
  obtain ⟨C, hC, hCs⟩ := compositeOp_same B q.before q.after hb ha
  refine ⟨C, by simp [dimInput, h1, hB, hC], ?_, ?_, ?_⟩
  · rw [hCs.1]; simp only [kron, ident, hBr, hr]; exact htot
  · rw [hCs.2.1]; simp only [kron, ident, hBc, hc]; exact htot
  · rw [← hpos.1, ← hpos.2.1]
    exact hCs.trans ((Same.refl _).kron hBs |>.kron (Same.refl _))

example : ∃ A, dimInput (node (some false) 2 2 2 []) (fun d => ident d) 3 = some A ∧ A.rows = 8 :=
  ⟨_, rfl, rfl⟩

/-! ### Operators of different systems commute -/

theorem sides_of_leftOf : ∀ (c : List Nat) (i : ℕ) (r : List Nat) (j : ℕ) (r' : List Nat) (t q q' : Sys), i < j → Shape t →
    sysAt t (c ++ i :: r) = some q → sysAt t (c ++ j :: r') = some q' →
    ∃ M, leftOf t (c ++ j :: r') = leftOf t (c ++ i :: r) ++ dims q ++ M ∧
      rightOf t (c ++ i :: r) = M ++ dims q' ++ rightOf t (c ++ j :: r')
  | [], i, r, j, r', node k d b a s, q, q', hij, hsh, h, h' => by
    unfold Shape at hsh
    cases hx : s[i]? with
    | none => simp [sysAt, hx] at h
    | some x =>
      cases hx' : s[j]? with
      | none => simp [sysAt, hx'] at h'
      | some x' =>
        simp only [List.nil_append, sysAt, hx, hx'] at h h'
        obtain ⟨l, m, rfl, rfl⟩ := split_at s i x hx
        have hk : k = some true := by
          by_contra hk
          have := (hsh.2 hk).1
          simp at this
        have hjm : m[j - l.length - 1]? = some x' := by
          have e : j = l.length + (j - l.length - 1 + 1) := by omega
          rw [e] at hx'
          rw [List.getElem?_append_right (by omega)] at hx'
          simpa using hx'
        obtain ⟨m₁, m₂, rfl, hm₁⟩ := split_at m (j - l.length - 1) x' hjm
        have hxs := shapeL_mem _ (hsh.1 hk) x (by simp)
        have hxs' := shapeL_mem _ (hsh.1 hk) x' (by simp)
        have d1 := dims_modifyAt some r x x q hxs (modifyAt_some r x q h) h
        have d2 := dims_modifyAt some r' x' x' q' hxs' (modifyAt_some r' x' q' h') h'
        have ej : j = (l ++ x :: m₁).length := by simp; omega
        have et : (l ++ x :: (m₁ ++ x' :: m₂)).take j = l ++ x :: m₁ := by
          rw [ej, show l ++ x :: (m₁ ++ x' :: m₂) = (l ++ x :: m₁) ++ x' :: m₂ by simp]
          exact List.take_left ..
        have ed : (l ++ x :: (m₁ ++ x' :: m₂)).drop (j + 1) = m₂ := by
          rw [ej, show l ++ x :: (m₁ ++ x' :: m₂) = (l ++ x :: m₁ ++ [x']) ++ m₂ by simp]
          rw [show (l ++ x :: m₁).length + 1 = (l ++ x :: m₁ ++ [x']).length by simp; omega]
          exact List.drop_left ..
        refine ⟨rightOf x r ++ dimsL m₁ ++ leftOf x' r', ?_, ?_⟩
        · simp only [List.nil_append, leftOf, hx, hx', et]
          rw [dimsL_append, dimsL, d1]
          simp [List.take_left']
        · simp only [List.nil_append, rightOf, hx, hx', ed]
          have : (l ++ x :: (m₁ ++ x' :: m₂)).drop (l.length + 1) = m₁ ++ x' :: m₂ := by
            rw [show l ++ x :: (m₁ ++ x' :: m₂) = (l ++ [x]) ++ (m₁ ++ x' :: m₂) by simp,
              show l.length + 1 = (l ++ [x]).length by simp]
            exact List.drop_left ..
          rw [this, dimsL_append, dimsL, d2]
          simp
  | e :: c, i, r, j, r', node k d b a s, q, q', hij, hsh, h, h' => by
    cases hx : s[e]? with
    | none => simp [sysAt, hx] at h
    | some x =>
      simp only [List.cons_append, sysAt, hx] at h h'
      unfold Shape at hsh
      have hk : k = some true := by
        by_contra hk
        rw [(hsh.2 hk).1] at hx
        simp at hx
      have hxs := shapeL_mem _ (hsh.1 hk) x (List.mem_of_getElem? hx)
      obtain ⟨M, h1, h2⟩ := sides_of_leftOf c i r j r' x q q' hij hxs h h'
      refine ⟨M, ?_, ?_⟩
      · simp only [List.cons_append, leftOf, hx, h1]; simp
      · simp only [List.cons_append, rightOf, hx, h2]; simp

theorem powN_size (A : Mat) (h : A.rows = A.cols) : ∀ n, (powN A n).rows = A.rows ∧ (powN A n).cols = A.cols
  | 0 => ⟨h.symm, rfl⟩
  | n + 1 => ⟨rfl, (powN_size A h n).2⟩

/-- Operators on different factors commute: `l`, `m`, `r` are the dimensions before, between and after. -/
theorem kron_commute (l m r : ℕ) (A B : Mat) (hA : A.rows = A.cols) (hB : B.rows = B.cols) :
    Same (mul (kron (kron (ident l) A) (ident (m * B.rows * r))) (kron (kron (ident (l * A.rows * m)) B) (ident r)))
      (mul (kron (kron (ident (l * A.rows * m)) B) (ident r)) (kron (kron (ident l) A) (ident (m * B.rows * r)))) := by
  have sA : Same (kron (kron (ident l) A) (ident (m * B.rows * r)))
      (kron (kron (kron (kron (ident l) A) (ident m)) (ident B.rows)) (ident r)) := by
    have e : Same (ident (m * B.rows * r)) (kron (kron (ident m) (ident B.rows)) (ident r)) :=
      ((kron_ident (m * B.rows) r).symm).trans (((kron_ident m B.rows).symm).kron (Same.refl _))
    refine ((Same.refl (kron (ident l) A)).kron e).trans ?_
    rw [← kron_assoc, ← kron_assoc]
    exact Same.refl _
  have sB : Same (kron (kron (ident (l * A.rows * m)) B) (ident r))
      (kron (kron (kron (kron (ident l) (ident A.rows)) (ident m)) B) (ident r)) := by
    have e : Same (ident (l * A.rows * m)) (kron (kron (ident l) (ident A.rows)) (ident m)) :=
      ((kron_ident (l * A.rows) m).symm).trans (((kron_ident l A.rows).symm).kron (Same.refl _))
    exact (e.kron (Same.refl B)).kron (Same.refl _)
  have dim1 : (kron (kron (ident l) A) (ident (m * B.rows * r))).cols =
      (kron (kron (ident (l * A.rows * m)) B) (ident r)).rows := by
    simp only [kron, ident]; rw [hA]; ring
  have dim2 : (kron (kron (ident (l * A.rows * m)) B) (ident r)).cols =
      (kron (kron (ident l) A) (ident (m * B.rows * r))).rows := by
    simp only [kron, ident]; rw [← hB]; ring
  refine (Same.mul sA sB dim1).trans ((?_ : Same _ _).trans (Same.mul sB sA dim2).symm)
  have hk : ∀ X Y Z W : Mat, X.cols = Z.rows → Y.cols = W.rows → Same (mul (kron X Y) (kron Z W)) (kron (mul X Z) (mul Y W)) :=
    fun X Y Z W h1 h2 => by rw [kron_mul X Y Z W h1 h2]; exact Same.refl _
  have idid : ∀ n, Same (mul (ident n) (ident n)) (ident n) := fun n => mul_ident_left (ident n)
  have key : ∀ (X X' Y Y' : Mat), Same (mul X X') (mul X' X) → Same (mul Y Y') (mul Y' Y) → X.cols = X'.rows → X'.cols = X.rows →
      Y.cols = Y'.rows → Y'.cols = Y.rows → Same (mul (kron X Y) (kron X' Y')) (mul (kron X' Y') (kron X Y)) :=
    fun X X' Y Y' h1 h2 h3 h4 h5 h6 => (hk X Y X' Y' h3 h5).trans ((h1.kron h2).trans (hk X' Y' X Y h4 h6).symm)
  have cA : Same (mul A (ident A.rows)) (mul (ident A.rows) A) := by
    have := mul_ident_right A
    rw [← hA] at this
    exact this.trans (mul_ident_left A).symm
  have cB : Same (mul (ident B.rows) B) (mul B (ident B.rows)) := by
    have := mul_ident_right B
    rw [← hB] at this
    exact (mul_ident_left B).trans this.symm
  refine key _ _ _ _ (key _ _ _ _ (key _ _ _ _ (key _ _ _ _ (Same.refl _) cA ?_ ?_ ?_ ?_) (Same.refl _) ?_ ?_ ?_ ?_) cB ?_ ?_ ?_ ?_)
    (Same.refl _) ?_ ?_ ?_ ?_
  all_goals simp [kron, ident, hA, hB]

/-- **C29.** Operators of two different systems, one to the left of the other (at any depth), commute. -/
theorem C29_commute {root q q' : Sys} {p p' : List Nat} (hs : Shape root) (hp : Positions root) (hl : LeftOf p p')
    (hg : sysAt root p = some q) (hg' : sysAt root p' = some q') (oper oper' : ℕ → Mat) (order order' : ℕ)
    (hf : Fits q oper order) (hf' : Fits q' oper' order') :
    ∃ A B, dimInput q oper order = some A ∧ dimInput q' oper' order' = some B ∧ Same (mul A B) (mul B A) := by
  obtain ⟨A, hA, hAr, hAc, hAs⟩ := C29_place hs hp hg oper order hf
  obtain ⟨B, hB, hBr, hBc, hBs⟩ := C29_place hs hp hg' oper' order' hf'
  refine ⟨A, B, hA, hB, ?_⟩
  obtain ⟨c, i, r, j, r', rfl, rfl, hij⟩ := hl
  obtain ⟨M, h1, h2⟩ := sides_of_leftOf c i r j r' root q q' hij hs hg hg'
  obtain ⟨_, hr, hc, _⟩ := hf
  obtain ⟨_, hr', hc', _⟩ := hf'
  have e1 := powN_size (oper q.dimension) (by rw [hr, hc]) order
  have e2 := powN_size (oper' q'.dimension) (by rw [hr', hc']) order'
  have key := kron_commute (leftOf root (c ++ i :: r)).prod M.prod (rightOf root (c ++ j :: r')).prod
    (powN (oper q.dimension) order) (powN (oper' q'.dimension) order') (by rw [e1.1, e1.2, hr, hc]) (by rw [e2.1, e2.2, hr', hc'])
  have l1 : (leftOf root (c ++ j :: r')).prod =
      (leftOf root (c ++ i :: r)).prod * (powN (oper q.dimension) order).rows * M.prod := by
    rw [h1, e1.1, hr, dimension_eq q]; simp [List.prod_append, mul_assoc]
  have l2 : (rightOf root (c ++ i :: r)).prod =
      M.prod * (powN (oper' q'.dimension) order').rows * (rightOf root (c ++ j :: r')).prod := by
    rw [h2, e2.1, hr', dimension_eq q']; simp [List.prod_append, mul_assoc]
  rw [l1] at hBs
  rw [l2] at hAs
  exact (Same.mul hAs hBs (by rw [hAc, hBr])).trans (key.trans (Same.mul hBs hAs (by rw [hBc, hAr])).symm)

/-! ### The Hamiltonian -/

/-- A value of the right size. -/
def Val.Sized (D : ℕ) : Val → Prop
  | .zero => True
  | .mat A => A.rows = D ∧ A.cols = D

theorem addV_sized {D : ℕ} {a b : Val} (ha : a.Sized D) (hb : b.Sized D) :
    ∃ c, addV a b = some c ∧ c.Sized D ∧ ∀ i j, c.entry i j = a.entry i j + b.entry i j := by
  cases a with
  | zero => exact ⟨b, by cases b <;> rfl, hb, fun i j => by simp [Val.entry]⟩
  | mat A =>
    cases b with
    | zero => exact ⟨.mat A, rfl, ha, fun i j => by simp [Val.entry]⟩
    | mat B =>
      simp only [Val.Sized] at ha hb
      refine ⟨.mat (add A B), ?_, ha, fun i j => rfl⟩
      simp only [addV]
      rw [if_pos ⟨by rw [ha.1, hb.1], by rw [ha.2, hb.2]⟩]

theorem termSum_sized {D : ℕ} (root : Sys) (p : List Nat) : ∀ (ts : List Term) (acc : Val), acc.Sized D →
    (∀ t ∈ ts, ∃ A, termMat root p t = some A ∧ A.rows = D ∧ A.cols = D) →
    ∃ v, termSum root p ts acc = some v ∧ v.Sized D ∧
      ∀ i j, v.entry i j = acc.entry i j + ((ts.map fun t => (p, t)).map (termEntry root i j)).sum
  | [], acc, ha, _ => ⟨acc, rfl, ha, fun i j => by simp⟩
  | t :: r, acc, ha, h => by
    obtain ⟨A, hA, hAr, hAc⟩ := h t (by simp)
    obtain ⟨acc', h1, h2, h3⟩ := addV_sized ha (b := .mat A) ⟨hAr, hAc⟩
    obtain ⟨v, h4, h5, h6⟩ := termSum_sized root p r acc' h2 fun t ht => h t (by simp [ht])
    refine ⟨v, by simp [termSum, hA, h1, h4], h5, fun i j => ?_⟩
    rw [h6, h3]
    simp [termEntry, hA, Val.entry, add_assoc]

mutual
theorem hamil_sized {D : ℕ} (root : Sys) (T : List Nat → List Term) : ∀ (q : Sys) (p : List Nat),
    (∀ c ∈ contributions T (paths p q), ∃ A, termMat root c.1 c.2 = some A ∧ A.rows = D ∧ A.cols = D) →
    ∃ v, hamil root T p q = some v ∧ v.Sized D ∧
      ∀ i j, v.entry i j = ((contributions T (paths p q)).map (termEntry root i j)).sum
  | node k d b a s, p, h => by
    have h1 : ∀ c ∈ contributions T (pathsL p 0 s), ∃ A, termMat root c.1 c.2 = some A ∧ A.rows = D ∧ A.cols = D :=
      fun c hc => h c (by simp only [contributions, paths, List.flatMap_append, List.mem_append] at hc ⊢; exact Or.inl hc)
    have h2 : ∀ t ∈ T p, ∃ A, termMat root p t = some A ∧ A.rows = D ∧ A.cols = D :=
      fun t ht => h (p, t) (by
        simp only [contributions, paths, List.flatMap_append, List.mem_append]
        exact Or.inr (by simpa using ht))
    obtain ⟨x, hx, hxs, hxe⟩ := hamilSubs_sized root T s p 0 .zero trivial h1
    obtain ⟨y, hy, hys, hye⟩ := termSum_sized root p (T p) .zero trivial h2
    obtain ⟨z, hz, hzs, hze⟩ := addV_sized hxs hys
    refine ⟨z, by simp [hamil, hx, hy, hz], hzs, fun i j => ?_⟩
    rw [hze, hxe, hye]
    simp [contributions, paths, Val.entry]
theorem hamilSubs_sized {D : ℕ} (root : Sys) (T : List Nat → List Term) : ∀ (s : List Sys) (p : List Nat) (n : ℕ) (acc : Val),
    acc.Sized D →
    (∀ c ∈ contributions T (pathsL p n s), ∃ A, termMat root c.1 c.2 = some A ∧ A.rows = D ∧ A.cols = D) →
    ∃ v, hamilSubs root T p n s acc = some v ∧ v.Sized D ∧
      ∀ i j, v.entry i j = acc.entry i j + ((contributions T (pathsL p n s)).map (termEntry root i j)).sum
  | [], p, n, acc, ha, _ => ⟨acc, by simp [hamilSubs], ha, fun i j => by simp [contributions, pathsL]⟩
  | q :: r, p, n, acc, ha, h => by
    obtain ⟨x, hx, hxs, hxe⟩ := hamil_sized root T q (p ++ [n]) fun c hc => h c (by
      simp only [contributions, pathsL, List.flatMap_append, List.mem_append] at hc ⊢; exact Or.inl hc)
    obtain ⟨acc', hy, hys, hye⟩ := addV_sized ha hxs
    obtain ⟨z, hz, hzs, hze⟩ := hamilSubs_sized root T r p (n + 1) acc' hys fun c hc => h c (by
      simp only [contributions, pathsL, List.flatMap_append, List.mem_append] at hc ⊢; exact Or.inr hc)
    refine ⟨z, by simp [hamilSubs, hx, hy, hz], hzs, fun i j => ?_⟩
    rw [hze, hye, hxe]
    simp [contributions, pathsL, add_assoc]
end

/-- The term makes sense for the structure: operators fit their systems, and a coupling has at least one part. -/
def TermFits (root : Sys) (p : List Nat) : Term → Prop
  | .own oper order _ => ∃ q, sysAt root p = some q ∧ Fits q oper order
  | .coupling parts _ => parts ≠ [] ∧ ∀ x ∈ parts, ∃ q, sysAt root x.1 = some q ∧ Fits q x.2.1 x.2.2

theorem partMats_sized {root : Sys} (hs : Shape root) (hp : Positions root) :
    ∀ parts : List (List Nat × (ℕ → Mat) × ℕ), (∀ x ∈ parts, ∃ q, sysAt root x.1 = some q ∧ Fits q x.2.1 x.2.2) →
      ∃ l, partMats root parts = some l ∧ l.length = parts.length ∧ ∀ A ∈ l, A.rows = root.dimension ∧ A.cols = root.dimension
  | [], _ => ⟨[], rfl, rfl, by simp⟩
  | (p, oper, order) :: r, h => by
    obtain ⟨q, hq, hf⟩ := h (p, oper, order) (by simp)
    obtain ⟨A, hA, hAr, hAc, _⟩ := C29_place hs hp hq oper order hf
    obtain ⟨l, hl, hll, hls⟩ := partMats_sized hs hp r fun x hx => h x (by simp [hx])
    refine ⟨A :: l, by simp only [partMats, hq, hA, hl], by simp [hll], ?_⟩
    intro B hB
    rcases List.mem_cons.1 hB with rfl | hB
    · exact ⟨hAr, hAc⟩
    · exact hls B hB

theorem matMulInputs_sized {D : ℕ} : ∀ l : List Mat, l ≠ [] → (∀ A ∈ l, A.rows = D ∧ A.cols = D) →
    ∃ B, matMulInputs l = some B ∧ B.rows = D ∧ B.cols = D
  | [], h, _ => absurd rfl h
  | [A], _, h => ⟨A, rfl, h A (by simp)⟩
  | A :: B :: r, _, h => by
    obtain ⟨C, h1, h2, h3⟩ := matMulInputs_sized (B :: r) (by simp) fun X hX => h X (by
      rcases List.mem_cons.1 hX with rfl | hX <;> simp [*])
    have hA := h A (by simp)
    refine ⟨mul A C, ?_, hA.1, h3⟩
    simp only [matMulInputs, h1, matmul]
    rw [if_pos (by rw [hA.2, h2])]

theorem termMat_sized {root : Sys} (hs : Shape root) (hp : Positions root) (p : List Nat) (t : Term) (hf : TermFits root p t) :
    ∃ A, termMat root p t = some A ∧ A.rows = root.dimension ∧ A.cols = root.dimension := by
  cases t with
  | own oper order freq =>
    obtain ⟨q, hq, hf⟩ := hf
    obtain ⟨A, hA, hAr, hAc, _⟩ := C29_place hs hp hq oper order hf
    exact ⟨smul freq A, by simp [termMat, hq, hA], hAr, hAc⟩
  | coupling parts freq =>
    obtain ⟨hne, hparts⟩ := hf
    obtain ⟨l, hl, hll, hls⟩ := partMats_sized hs hp parts hparts
    have : l ≠ [] := by
      rintro rfl
      exact hne (List.length_eq_zero_iff.1 hll.symm)
    obtain ⟨B, hB, hBr, hBc⟩ := matMulInputs_sized l this hls
    exact ⟨smul freq B, by simp [termMat, hl, hB], hBr, hBc⟩

/-- **C29.** The Hamiltonian of a composite exists, has the size of the whole, and is the sum over all systems in it, at any depth, of
all their terms: frequency times the embedded operator (`C29_place`), or times the product of the embedded operators for a coupling. -/
theorem C29_hamiltonian {root : Sys} (hs : Shape root) (hp : Positions root) (T : List Nat → List Term)
    (hT : ∀ c ∈ contributions T (paths [] root), TermFits root c.1 c.2) :
    ∃ v, hamil root T [] root = some v ∧ v.Sized root.dimension ∧
      ∀ i j, v.entry i j = ((contributions T (paths [] root)).map (termEntry root i j)).sum :=
  hamil_sized root T root [] fun c hc => termMat_sized hs hp c.1 c.2 (hT c hc)

/-- Every system of the structure is counted, and nothing else is. -/
theorem mem_paths (t : Sys) (p : List Nat) : p ∈ paths [] t ↔ ∃ q, sysAt t p = some q := by
  have := mem_paths_aux t [] p
  simpa using this
where
  mem_paths_aux : ∀ (t : Sys) (p₀ p : List Nat), p ∈ paths p₀ t ↔ ∃ r, p = p₀ ++ r ∧ ∃ q, sysAt t r = some q
  | node k d b a s, p₀, p => by
    simp only [paths, List.mem_append, List.mem_singleton]
    rw [mem_pathsL s p₀ 0 p]
    constructor
    · rintro (⟨i, r, rfl, x, hx, hq⟩ | rfl)
      · exact ⟨i :: r, by simp, by simp only [sysAt, hx]; exact hq⟩
      · exact ⟨[], by simp, _, rfl⟩
    · rintro ⟨r, rfl, q, hq⟩
      cases r with
      | nil => right; simp
      | cons i r =>
        left
        cases hx : s[i]? with
        | none => simp [sysAt, hx] at hq
        | some x =>
          simp only [sysAt, hx] at hq
          exact ⟨i, r, by simp, x, hx, q, hq⟩
  mem_pathsL : ∀ (s : List Sys) (p₀ : List Nat) (n : ℕ) (p : List Nat), p ∈ pathsL p₀ n s ↔
      ∃ i r, p = p₀ ++ (n + i) :: r ∧ ∃ x, s[i]? = some x ∧ ∃ q, sysAt x r = some q
  | [], _, _, _ => by simp [pathsL]
  | t :: s, p₀, n, p => by
    simp only [pathsL, List.mem_append]
    rw [mem_paths_aux t (p₀ ++ [n]) p, mem_pathsL s p₀ (n + 1) p]
    constructor
    · rintro (⟨r, rfl, hq⟩ | ⟨i, r, rfl, hx⟩)
      · exact ⟨0, r, by simp, t, by simp, hq⟩
      · exact ⟨i + 1, r, by rw [show n + (i + 1) = n + 1 + i by omega], by simpa using hx⟩
    · rintro ⟨i, r, rfl, x, hx, hq⟩
      cases i with
      | zero =>
        left
        simp at hx
        subst hx
        exact ⟨r, by simp, hq⟩
      | succ i =>
        right
        exact ⟨i, r, by rw [show n + (i + 1) = n + 1 + i by omega], x, by simpa using hx, hq⟩

mutual
/-- No system is counted twice. -/
theorem paths_nodup : ∀ (t : Sys) (p₀ : List Nat), (paths p₀ t).Nodup
  | node k d b a s, p₀ => by
    rw [paths, List.nodup_append]
    refine ⟨pathsL_nodup s p₀ 0, by simp, ?_⟩
    rintro x hx y hy rfl
    obtain ⟨i, r, h, _⟩ := (mem_paths.mem_pathsL s p₀ 0 x).1 hx
    simp at hy
    subst hy
    have := congrArg List.length h
    simp at this
theorem pathsL_nodup : ∀ (s : List Sys) (p₀ : List Nat) (n : ℕ), (pathsL p₀ n s).Nodup
  | [], _, _ => by simp [pathsL]
  | t :: s, p₀, n => by
    rw [pathsL, List.nodup_append]
    refine ⟨paths_nodup t (p₀ ++ [n]), pathsL_nodup s p₀ (n + 1), ?_⟩
    rintro x hx y hy rfl
    obtain ⟨r, h, _⟩ := (mem_paths.mem_paths_aux t (p₀ ++ [n]) x).1 hx
    obtain ⟨i, r', h', _⟩ := (mem_paths.mem_pathsL s p₀ (n + 1) x).1 hy
    rw [h] at h'
    simp at h'
    omega
end

end Verif.Tree
