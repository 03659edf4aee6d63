import Verif.Old.Model
import Verif.Tree.Hermitian

/-!
# C70: Hamiltonians and couplings of the older classes
-/
namespace Verif.Old
open Verif.Tree Verif.Tree.Sys Verif.NMat

/-! ### The embedded operator of a term -/

theorem powN_same {A B : Mat} (h : Same A B) (hA : A.rows = A.cols) : ∀ n, Same (powN A n) (powN B n)
  | 0 => by rw [powN, powN, h.2.1]; exact Same.refl _
  | n + 1 => Same.mul h (powN_same h hA n) (by rw [(powN_size A hA n).1, hA])

/-- A power of an embedded operator is the embedded power. -/
theorem powN_kron (l r : ℕ) (A : Mat) (hA : A.rows = A.cols) :
    ∀ n, Same (powN (kron (kron (ident l) A) (ident r)) n) (kron (kron (ident l) (powN A n)) (ident r))
  | 0 => by
    rw [powN, powN]
    exact ((kron_ident (l * A.cols) r).symm).trans (((kron_ident l A.cols).symm).kron (Same.refl _))
  | n + 1 => by
    have e := powN_size A hA n
    have hsq : (kron (kron (ident l) A) (ident r)).rows = (kron (kron (ident l) A) (ident r)).cols := by
      simp only [kron, ident, hA]
    have e' := powN_size _ hsq n
    refine (Same.mul (Same.refl _) (powN_kron l r A hA n) (by rw [e'.1, hsq])).trans ?_
    rw [kron_mul _ _ _ _ (by simp only [kron, ident, e.1, hA]) (by simp only [ident]),
      kron_mul _ _ _ _ (by simp only [ident]) (by rw [e.1, hA])]
    exact ((mul_ident_left (ident l)).kron (Same.refl _)).kron (mul_ident_left (ident r))

/-- **C70.** The matrix of a term of the single system at path `p` of a consistent structure is `identity x operator^order x identity`,
as for the newer class: raising to the power after the embedding makes no difference. -/
theorem C70_place {root q : Sys} {p : List ℕ} (hs : Shape root) (hp : Positions root) (hg : sysAt root p = some q)
    (oper : ℕ → Mat) (order : ℕ) (hf : Fits q oper order) :
    ∃ A, termFree q oper order = some A ∧ A.rows = root.dimension ∧ A.cols = root.dimension ∧
      Same A (kron (kron (ident (leftOf root p).prod) (powN (oper q.dimension) order)) (ident (rightOf root p).prod)) := by
  have hw := (wf_iff root).2 ⟨hs, hp⟩
  obtain ⟨h1, hr, hc, ho⟩ := hf
  obtain ⟨n, rfl⟩ := Nat.exists_eq_succ_of_ne_zero (Nat.pos_iff_ne_zero.1 ho)
  have hpos := hp p q hg
  have htot := total_dimension hw hg
  have hD : 0 < root.dimension := wf_pos hw
  have hb : 0 < q.before := Nat.pos_of_ne_zero (by intro h; rw [h] at htot; simp at htot; omega)
  have ha : 0 < q.after := Nat.pos_of_ne_zero (by intro h; rw [h] at htot; simp at htot; omega)
  obtain ⟨C, hC, hCs⟩ := compositeOp_same (oper q.dimension) q.before q.after hb ha
  have hCr : C.rows = root.dimension := by rw [hCs.1]; simp only [kron, ident, hr]; exact htot
  have hCc : C.cols = root.dimension := by rw [hCs.2.1]; simp only [kron, ident, hc]; exact htot
  obtain ⟨B, hB, hBs, hBr, hBc⟩ := matPower_same C (by rw [hCr, hCc]) n
  refine ⟨B, by simp [termFree, hC, hB], by rw [hBr, hCr], by rw [hBc, hCc], ?_⟩
  rw [← hpos.1, ← hpos.2.1]
  exact hBs.trans ((powN_same hCs (by rw [hCr, hCc]) (n + 1)).trans (powN_kron _ _ _ (by rw [hr, hc]) (n + 1)))

example : ∃ A, termFree (node (some false) 2 2 2 []) (fun d => ident d) 3 = some A ∧ A.rows = 8 := ⟨_, rfl, rfl⟩

/-! ### Couplings -/

/-- What an entry `(systems, operators)` of a coupling stands for: the product of all its operators, each on its own system. -/
def asTerms (c : Coup) : List Term :=
  c.entries.map fun e => Term.coupling (List.zipWith (fun p o => (p, o, 1)) e.1 e.2) c.strength

/-- The entry couples two systems at different places. -/
def TwoBody (root : Sys) (e : Entry) : Prop :=
  ∃ p p' o o' q q', e = ([p, p'], [o, o']) ∧ Apart p p' ∧ sysAt root p = some q ∧ sysAt root p' = some q' ∧ Fits q o 1 ∧ Fits q' o' 1

theorem apart_commute {root q q' : Sys} {p p' : List ℕ} (hs : Shape root) (hp : Positions root) (h : Apart p p')
    (hg : sysAt root p = some q) (hg' : sysAt root p' = some q') {o o' : ℕ → Mat} (hf : Fits q o 1) (hf' : Fits q' o' 1) {A B : Mat}
    (hA : dimInput q o 1 = some A) (hB : dimInput q' o' 1 = some B) : Same (mul A B) (mul B A) := by
  rcases h with h | h
  · obtain ⟨A', B', hA', hB', hc⟩ := C29_commute hs hp h hg hg' o o' 1 1 hf hf'
    obtain rfl := Option.some.inj (hA.symm.trans hA')
    obtain rfl := Option.some.inj (hB.symm.trans hB')
    exact hc
  · obtain ⟨B', A', hB', hA', hc⟩ := C29_commute hs hp h hg' hg o' o 1 1 hf' hf
    obtain rfl := Option.some.inj (hA.symm.trans hA')
    obtain rfl := Option.some.inj (hB.symm.trans hB')
    exact hc.symm

theorem dimInput_one {q : Sys} {o : ℕ → Mat} {A : Mat} (h : dimInput q o 1 = some A) :
    compositeOp (o q.dimension) q.before q.after = some A := by
  unfold dimInput at h
  by_cases h1 : q.dimension = 1
  · simp [h1] at h
  · simpa [h1, matPower] using h

/-- **C70.** The matrix of an entry with two systems is the product of the two embedded operators, in whatever order they are given. -/
theorem C70_two_body {root : Sys} (hs : Shape root) (hp : Positions root) {e : Entry} (h : TwoBody root e) (w : ℂ) :
    ∃ A B, entryMat root e = some A ∧ A.rows = root.dimension ∧ A.cols = root.dimension ∧
      termMat root [] (.coupling (List.zipWith (fun p o => (p, o, 1)) e.1 e.2) w) = some B ∧ Same (NMat.smul w A) B := by
  obtain ⟨p, p', o, o', q, q', rfl, hap, hg, hg', hf, hf'⟩ := h
  obtain ⟨A, hA, hAr, hAc, -⟩ := C29_place hs hp hg o 1 hf
  obtain ⟨B, hB, hBr, hBc, -⟩ := C29_place hs hp hg' o' 1 hf'
  have hA' := dimInput_one hA
  have hB' := dimInput_one hB
  have hcm := apart_commute hs hp hap hg hg' hf hf' hA hB
  have hparts : coupParts root ([p, p'], [o, o']) (List.range 2) = some [(ind p, A), (ind p', B)] := by
    rw [show List.range 2 = [0, 1] from rfl]
    simp [coupParts, coupPart, hg, hg', hA', hB']
  have mAB : matmul A B = some (mul A B) := by rw [matmul, if_pos (by rw [hAc, hBr])]
  have mBA : matmul B A = some (mul B A) := by rw [matmul, if_pos (by rw [hBc, hAr])]
  have ht : termMat root [] (.coupling (List.zipWith (fun p o => (p, o, 1)) [p, p'] [o, o']) w) = some (NMat.smul w (mul A B)) := by
    simp [termMat, partMats, hg, hg', hA, hB, matMulInputs, mAB]
  by_cases hle : ind p ≤ ind p'
  · refine ⟨mul A B, NMat.smul w (mul A B), ?_, hAr, hBc, ht, Same.refl _⟩
    simp [entryMat, hparts, coupOrdering, hle, foldMul, mAB]
  · refine ⟨mul B A, NMat.smul w (mul A B), ?_, hBr, hAc, ht, ?_⟩
    · simp [entryMat, hparts, coupOrdering, hle, foldMul, mBA]
    · refine ⟨hcm.symm.1, hcm.symm.2.1, fun i hi j hj => ?_⟩
      have := hcm.symm.2.2 i hi j hj
      simp only [NMat.smul, this]

theorem entrySum_sized {root : Sys} (hs : Shape root) (hp : Positions root) (w : ℂ) : ∀ (l : List Entry) (acc : Val),
    acc.Sized root.dimension → (∀ e ∈ l, TwoBody root e) →
    ∃ v, entrySum root l acc = some v ∧ v.Sized root.dimension ∧
      ∀ i j, i < root.dimension → j < root.dimension → w * v.entry i j = w * acc.entry i j +
        (l.map fun e => termEntry root i j ([], .coupling (List.zipWith (fun p o => (p, o, 1)) e.1 e.2) w)).sum
  | [], acc, ha, _ => ⟨acc, rfl, ha, fun i j _ _ => by simp⟩
  | e :: r, acc, ha, h => by
    obtain ⟨A, B, hA, hAr, hAc, hB, hAB⟩ := C70_two_body hs hp (h e (by simp)) w
    obtain ⟨acc', h1, h2, h3⟩ := addV_sized ha (b := .mat A) ⟨hAr, hAc⟩
    obtain ⟨v, h4, h5, h6⟩ := entrySum_sized hs hp w r acc' h2 fun x hx => h x (by simp [hx])
    refine ⟨v, by simp [entrySum, hA, h1, h4], h5, fun i j hi hj => ?_⟩
    rw [h6 i j hi hj, h3, mul_add, List.map_cons, List.sum_cons, add_assoc]
    congr 2
    have := hAB.2.2 i (by simpa [NMat.smul, hAr] using hi) j (by simpa [NMat.smul, hAc] using hj)
    rw [termEntry]
    simp only [hB, ← this, Val.entry, NMat.smul]

theorem termEntry_path (root : Sys) (i j : ℕ) (p : List ℕ) (parts : List (List ℕ × (ℕ → Mat) × ℕ)) (w : ℂ) :
    termEntry root i j (p, .coupling parts w) = termEntry root i j ([], .coupling parts w) := rfl

theorem smulV_sized {D : ℕ} {v : Val} (c : ℂ) (h : v.Sized D) : (smulV c v).Sized D ∧ ∀ i j, (smulV c v).entry i j = c * v.entry i j := by
  cases v with
  | zero => exact ⟨trivial, fun i j => by simp [smulV, Val.entry]⟩
  | mat A => exact ⟨h, fun i j => rfl⟩

/-- **C70.** The Hamiltonian of a coupling of pairs of systems is its strength times the sum over its entries of the products of the
embedded operators. -/
theorem C70_coupling_partial {root : Sys} (hs : Shape root) (hp : Positions root) (c : Coup) (h : ∀ e ∈ c.entries, TwoBody root e)
    (p : List ℕ) : ∃ v, coupHam root c = some v ∧ v.Sized root.dimension ∧
      ∀ i j, i < root.dimension → j < root.dimension →
        v.entry i j = ((asTerms c).map fun t => termEntry root i j (p, t)).sum := by
  obtain ⟨v, h1, h2, h3⟩ := entrySum_sized hs hp c.strength c.entries .zero trivial h
  obtain ⟨h4, h5⟩ := smulV_sized c.strength h2
  refine ⟨_, by simp only [coupHam, h1], h4, fun i j hi hj => ?_⟩
  rw [h5, h3 i j hi hj]
  simp [Val.entry, asTerms, List.map_map, Function.comp_def, termEntry_path root i j p]

theorem coupSum_sized {root : Sys} (hs : Shape root) (hp : Positions root) (p : List ℕ) : ∀ (l : List Coup) (acc : Val),
    acc.Sized root.dimension → (∀ c ∈ l, ∀ e ∈ c.entries, TwoBody root e) →
    ∃ v, coupSum root l acc = some v ∧ v.Sized root.dimension ∧
      ∀ i j, i < root.dimension → j < root.dimension →
        v.entry i j = acc.entry i j + ((l.flatMap asTerms).map fun t => termEntry root i j (p, t)).sum
  | [], acc, ha, _ => ⟨acc, rfl, ha, fun i j _ _ => by simp⟩
  | c :: r, acc, ha, h => by
    obtain ⟨x, hx, hxs, hxe⟩ := C70_coupling_partial hs hp c (h c (by simp)) p
    obtain ⟨acc', h1, h2, h3⟩ := addV_sized ha hxs
    obtain ⟨v, h4, h5, h6⟩ := coupSum_sized hs hp p r acc' h2 fun y hy => h y (by simp [hy])
    refine ⟨v, by simp [coupSum, hx, h1, h4], h5, fun i j hi hj => ?_⟩
    rw [h6 i j hi hj, h3, hxe i j hi hj, List.flatMap_cons, List.map_append, List.sum_append, add_assoc]

/-! ### The Hamiltonian of a structure -/

/-- A term of a single system, as a term of the newer class. -/
def asTerm (t : OldTerm) : Term := .own t.oper t.order t.freq

theorem ownSum_sized {root q : Sys} {p : List ℕ} (hs : Shape root) (hp : Positions root) (hg : sysAt root p = some q) :
    ∀ (l : List OldTerm) (acc : Val), acc.Sized root.dimension → (∀ t ∈ l, Fits q t.oper t.order) →
    ∃ v, ownSum q l acc = some v ∧ v.Sized root.dimension ∧
      ∀ i j, i < root.dimension → j < root.dimension →
        v.entry i j = acc.entry i j + ((l.map asTerm).map fun t => termEntry root i j (p, t)).sum
  | [], acc, ha, _ => ⟨acc, rfl, ha, fun i j _ _ => by simp⟩
  | t :: r, acc, ha, h => by
    obtain ⟨A, hA, hAr, hAc, hAs⟩ := C70_place hs hp hg t.oper t.order (h t (by simp))
    obtain ⟨B, hB, hBr, hBc, hBs⟩ := C29_place hs hp hg t.oper t.order (h t (by simp))
    obtain ⟨acc', h1, h2, h3⟩ := addV_sized ha (b := .mat (NMat.smul t.freq A)) ⟨hAr, hAc⟩
    obtain ⟨v, h4, h5, h6⟩ := ownSum_sized hs hp hg r acc' h2 fun x hx => h x (by simp [hx])
    refine ⟨v, by simp [ownSum, hA, h1, h4], h5, fun i j hi hj => ?_⟩
    rw [h6 i j hi hj, h3, List.map_cons, List.map_cons, List.sum_cons, add_assoc]
    congr 2
    have := (hAs.trans hBs.symm).2.2 i (by rw [hAr]; exact hi) j (by rw [hAc]; exact hj)
    simp only [termEntry, asTerm, termMat, hg, hB, Val.entry, NMat.smul, this]

/-- The terms of a structure of older systems: those of the single systems, and what the couplings of the composites stand for. -/
def allTerms (T : List ℕ → List OldTerm) (K : List ℕ → List Coup) : List ℕ → List Term :=
  fun p => (T p).map asTerm ++ (K p).flatMap asTerms

/-- Terms belong to single systems and fit them, couplings belong to composites and couple pairs of systems. -/
def Reasonable (root : Sys) (T : List ℕ → List OldTerm) (K : List ℕ → List Coup) : Prop :=
  ∀ p q, sysAt root p = some q →
    (q.kind = some true → T p = [] ∧ ∀ c ∈ K p, ∀ e ∈ c.entries, TwoBody root e) ∧
    (q.kind ≠ some true → K p = [] ∧ ∀ t ∈ T p, Fits q t.oper t.order)

theorem sysAt_snoc {root q : Sys} {p : List ℕ} (h : sysAt root p = some q) (n : ℕ) :
    sysAt root (p ++ [n]) = q.subs[n]? := by
  rw [sysAt_append, h]
  cases q with
  | node k d b a s =>
    simp only [Option.bind_some, sysAt, subs]
    cases s[n]? <;> rfl

mutual
theorem hamOld_sized {root : Sys} (hs : Shape root) (hp : Positions root) {T : List ℕ → List OldTerm} {K : List ℕ → List Coup}
    (hr : Reasonable root T K) : ∀ (q : Sys) (p : List ℕ), sysAt root p = some q → Shape q →
    ∃ v, hamOld root T K p q = some v ∧ v.Sized root.dimension ∧
      ∀ i j, i < root.dimension → j < root.dimension →
        v.entry i j = ((contributions (allTerms T K) (paths p q)).map (termEntry root i j)).sum
  | node k d b a s, p, hg, hq => by
    have hrq := hr p _ hg
    simp only [kind] at hrq
    unfold Shape at hq
    by_cases hk : k = some true
    · obtain ⟨hT, hK⟩ := hrq.1 hk
      obtain ⟨x, hx, hxs, hxe⟩ := hamOldSubs_sized hs hp hr s p 0 .zero trivial
        (fun n => by rw [sysAt_snoc hg]; simp [subs]) (hq.1 hk)
      obtain ⟨y, hy, hys, hye⟩ := coupSum_sized hs hp p (K p) .zero trivial hK
      obtain ⟨z, hz, hzs, hze⟩ := addV_sized hxs hys
      refine ⟨z, by rw [hamOld]; simp [hk, hx, hy, hz], hzs, fun i j hi hj => ?_⟩
      rw [hze, hxe i j hi hj, hye i j hi hj]
      simp [contributions, paths, allTerms, hT, Val.entry, List.map_map, Function.comp_def]
    · obtain ⟨hK, hT⟩ := hrq.2 hk
      obtain ⟨hs0, -⟩ := hq.2 hk
      subst hs0
      obtain ⟨y, hy, hys, hye⟩ := ownSum_sized hs hp hg (T p) .zero trivial hT
      refine ⟨y, by rw [hamOld, if_neg hk]; exact hy, hys, fun i j hi hj => ?_⟩
      rw [hye i j hi hj]
      simp [contributions, paths, pathsL, allTerms, hK, Val.entry, List.map_map, Function.comp_def]
theorem hamOldSubs_sized {root : Sys} (hs : Shape root) (hp : Positions root) {T : List ℕ → List OldTerm} {K : List ℕ → List Coup}
    (hr : Reasonable root T K) : ∀ (s : List Sys) (p : List ℕ) (n : ℕ) (acc : Val), acc.Sized root.dimension →
    (∀ m, sysAt root (p ++ [n + m]) = s[m]?) → ShapeL s →
    ∃ v, hamOldSubs root T K p n s acc = some v ∧ v.Sized root.dimension ∧
      ∀ i j, i < root.dimension → j < root.dimension →
        v.entry i j = acc.entry i j + ((contributions (allTerms T K) (pathsL p n s)).map (termEntry root i j)).sum
  | [], p, n, acc, ha, _, _ => ⟨acc, by simp [hamOldSubs], ha, fun i j _ _ => by simp [contributions, pathsL]⟩
  | q :: r, p, n, acc, ha, hg, hq => by
    simp only [ShapeL] at hq
    obtain ⟨x, hx, hxs, hxe⟩ := hamOld_sized hs hp hr q (p ++ [n]) (by simpa using hg 0) hq.1
    obtain ⟨acc', hy, hys, hye⟩ := addV_sized ha hxs
    obtain ⟨z, hz, hzs, hze⟩ := hamOldSubs_sized hs hp hr r p (n + 1) acc' hys
      (fun m => by simpa [add_assoc, add_comm 1 m] using hg (m + 1)) hq.2
    refine ⟨z, by simp [hamOldSubs, hx, hy, hz], hzs, fun i j hi hj => ?_⟩
    rw [hze i j hi hj, hye, hxe i j hi hj]
    simp [contributions, pathsL, add_assoc]
end

theorem twoBody_fits {root : Sys} {e : Entry} (h : TwoBody root e) (p : List ℕ) (w : ℂ) :
    TermFits root p (.coupling (List.zipWith (fun p o => (p, o, 1)) e.1 e.2) w) := by
  obtain ⟨p1, p2, o1, o2, q1, q2, rfl, -, h1, h2, h3, h4⟩ := h
  refine ⟨by simp, ?_⟩
  intro x hx
  simp only [List.zipWith_cons_cons, List.zipWith_nil_right, List.mem_cons, List.not_mem_nil, or_false] at hx
  rcases hx with rfl | rfl
  · exact ⟨q1, h1, h3⟩
  · exact ⟨q2, h2, h4⟩

theorem reasonable_fits {root : Sys} {T : List ℕ → List OldTerm} {K : List ℕ → List Coup} (hr : Reasonable root T K) :
    ∀ c ∈ contributions (allTerms T K) (paths [] root), TermFits root c.1 c.2 := by
  intro c hc
  simp only [contributions, List.mem_flatMap, List.mem_map] at hc
  obtain ⟨p, hp, t, ht, rfl⟩ := hc
  obtain ⟨q, hq⟩ := (mem_paths root p).1 hp
  have h := hr p q hq
  simp only [allTerms, List.mem_append, List.mem_map, List.mem_flatMap] at ht
  by_cases hk : q.kind = some true
  · obtain ⟨hT, hK⟩ := h.1 hk
    rw [hT] at ht
    rcases ht with ⟨x, hx, -⟩ | ⟨x, hx, hxt⟩
    · simp at hx
    · simp only [asTerms, List.mem_map] at hxt
      obtain ⟨e, he, rfl⟩ := hxt
      exact twoBody_fits (hK x hx e he) p x.strength
  · obtain ⟨hK, hT⟩ := h.2 hk
    rw [hK] at ht
    rcases ht with ⟨x, hx, rfl⟩ | ⟨x, hx, -⟩
    · exact ⟨q, hq, hT x hx⟩
    · simp at hx

/-- **C70.** As long as every coupling entry couples two systems, the Hamiltonian of a structure of older systems, nested to any depth, is
the Hamiltonian the newer class gives for the same structure and the same terms (`C29_hamiltonian` tells which one this is). -/
theorem C70_hamiltonian_partial {root : Sys} (hs : Shape root) (hp : Positions root) (T : List ℕ → List OldTerm)
    (K : List ℕ → List Coup) (hr : Reasonable root T K) :
    ∃ v v', hamOld root T K [] root = some v ∧ hamil root (allTerms T K) [] root = some v' ∧ v.Sized root.dimension ∧
      v.toOp root.dimension = v'.toOp root.dimension := by
  obtain ⟨v, h1, h2, h3⟩ := hamOld_sized hs hp hr root [] (by cases root; rfl) hs
  obtain ⟨v', h4, -, h6⟩ := C29_hamiltonian hs hp (allTerms T K) (reasonable_fits hr)
  refine ⟨v, v', h1, h4, h2, ?_⟩
  ext i j
  rw [Val.toOp, Val.toOp, Matrix.of_apply, Matrix.of_apply, h3 i j i.2 j.2, h6]

/-- **C70.** It is Hermitian when every term comes with its adjoint, and then the evolution with it is unitary at every time. -/
theorem C70_unitary_partial {root : Sys} (hs : Shape root) (hp : Positions root) (T : List ℕ → List OldTerm) (K : List ℕ → List Coup)
    (hr : Reasonable root T K) (ha : AdjClosed root (contributions (allTerms T K) (paths [] root))) :
    ∃ v, hamOld root T K [] root = some v ∧ (v.toOp root.dimension).IsHermitian ∧
      ∀ t : ℝ, Toolbox.hc (Toolbox.unitaryOp (v.toOp root.dimension) t) * Toolbox.unitaryOp (v.toOp root.dimension) t = 1 := by
  obtain ⟨v, v', h1, h2, -, h4⟩ := C70_hamiltonian_partial hs hp T K hr
  obtain ⟨w, h5, h6⟩ := C68_hermitian hs hp (allTerms T K) (reasonable_fits hr) ha
  obtain rfl := Option.some.inj (h2.symm.trans h5)
  rw [← h4] at h6
  exact ⟨v, h1, h6, fun t => (Toolbox.C41_unitary _ h6 t).1⟩

/-! ### Couplings of other numbers of systems -/

/-- **C70 is false of the code** for three and more systems: only the first two systems and operators of an entry are ever looked at. -/
theorem C70_rest_ignored (root : Sys) (p p' : List ℕ) (ps : List (List ℕ)) (o o' : ℕ → Mat) (os : List (ℕ → Mat)) :
    entryMat root (p :: p' :: ps, o :: o' :: os) = entryMat root ([p, p'], [o, o']) := by
  have h : List.range 2 = [0, 1] := rfl
  simp [entryMat, h, coupParts, coupPart]

/-- **C70 is false of the code** for a single system: building the matrix of such an entry raises. -/
theorem C70_one_system (root : Sys) (p : List ℕ) (os : List (ℕ → Mat)) : entryMat root ([p], os) = none := by
  have h : List.range 2 = [0, 1] := rfl
  simp only [entryMat, h, coupParts, coupPart]
  cases os[0]? <;> cases os[1]? <;> simp
  all_goals rename_i o; cases sysAt root p <;> simp
  all_goals rename_i q; cases compositeOp (o q.dimension) q.before q.after <;> simp

/-- Three qubits. -/
def trio : Sys := node (some true) 1 1 1 [node (some false) 2 1 4 [], node (some false) 2 2 2 [], node (some false) 2 4 1 []]

theorem trio_wf : Shape trio ∧ Positions trio := (wf_iff trio).1 (by simp [trio, WF, WFL, dimension, dimProd])

/-- The third Pauli matrix. -/
def sz : ℕ → Mat := op2 1 0 0 (-1)

/-- The coupling `g sz sz sz` of the three qubits. -/
def zzz (g : ℂ) : Coup := ⟨g, [([[0], [1], [2]], [sz, sz, sz])]⟩

theorem trio_fits (i : ℕ) (hi : i < 3) : ∃ q, sysAt trio [i] = some q ∧ q.dimension = 2 ∧ Fits q sz 1 := by
  have : i = 0 ∨ i = 1 ∨ i = 2 := by omega
  rcases this with rfl | rfl | rfl <;> exact ⟨_, rfl, rfl, by decide, rfl, rfl, by decide⟩

/-- **C70 is false of the code**: the coupling `g sz sz sz` of three qubits is the coupling `g sz sz 1`: its first two diagonal entries
are equal, in the product of the three operators they have opposite signs. -/
theorem C70_three_body (g : ℂ) (hg : g ≠ 0) : (∀ t ∈ asTerms (zzz g), TermFits trio [] t) ∧
    ∃ v, coupHam trio (zzz g) = some v ∧ v.entry 0 0 = g ∧ v.entry 1 1 = g ∧
      ((asTerms (zzz g)).map fun t => termEntry trio 1 1 ([], t)).sum = -g ∧ v.entry 1 1 ≠ -g := by
  have key : ∃ v, coupHam trio (zzz g) = some v ∧ v.entry 0 0 = g ∧ v.entry 1 1 = g := by
    have e : coupHam trio (zzz g) = some (.mat (NMat.smul g (mul (kron (sz 2) (ident 4)) (kron (ident 2) (kron (sz 2) (ident 2)))))) := rfl
    refine ⟨_, e, ?_, ?_⟩
    all_goals simp [NMat.smul, Val.entry, mul, kron, ident, sz, op2, Finset.sum_range_succ]
  obtain ⟨v, h1, h2, h3⟩ := key
  refine ⟨?_, v, h1, h2, h3, ?_, ?_⟩
  · intro t ht
    simp only [asTerms, zzz, List.map_cons, List.map_nil, List.mem_singleton] at ht
    subst ht
    refine ⟨by simp, ?_⟩
    intro x hx
    simp only [List.zipWith_cons_cons, List.zipWith_nil_right, List.mem_cons, List.not_mem_nil, or_false] at hx
    rcases hx with rfl | rfl | rfl
    · obtain ⟨q, h1, -, h2⟩ := trio_fits 0 (by decide); exact ⟨q, h1, h2⟩
    · obtain ⟨q, h1, -, h2⟩ := trio_fits 1 (by decide); exact ⟨q, h1, h2⟩
    · obtain ⟨q, h1, -, h2⟩ := trio_fits 2 (by decide); exact ⟨q, h1, h2⟩
  · have e : termMat trio [] (.coupling [([0], sz, 1), ([1], sz, 1), ([2], sz, 1)] g) =
        some (NMat.smul g (mul (kron (sz 2) (ident 4)) (mul (kron (ident 2) (kron (sz 2) (ident 2))) (kron (ident 4) (sz 2))))) := rfl
    simp only [asTerms, zzz, List.map_cons, List.map_nil, List.zipWith_cons_cons, List.zipWith_nil_right, List.sum_cons, List.sum_nil,
      add_zero, termEntry, e]
    simp [NMat.smul, mul, kron, ident, sz, op2, Finset.sum_range_succ]
  · rw [h3]
    intro h
    exact hg (by simpa using self_eq_neg.1 h)

/-! ### The arguments of `addTerm` -/

variable {S O : Type}

/-- The keys are `0, 1, ...` in order. -/
def Numbered (d : Dict S O) : Prop := d.map Prod.fst = List.range d.length

theorem put_numbered {d : Dict S O} (h : Numbered d) (v : List S × List O) : put d d.length v = d ++ [(d.length, v)] := by
  have : d.any (fun x => x.1 == d.length) = false := by
    rw [List.any_eq_false]
    intro x hx
    have : x.1 ∈ d.map Prod.fst := List.mem_map_of_mem hx
    rw [h, List.mem_range] at this
    simp; omega
  simp [put, this]

theorem numbered_snoc {d : Dict S O} (h : Numbered d) (v : List S × List O) : Numbered (d ++ [(d.length, v)]) := by
  simp [Numbered] at h ⊢
  rw [h, List.range_succ]

/-- New values under the next keys. -/
def extend (d : Dict S O) : List (List S × List O) → Dict S O
  | [] => d
  | v :: r => extend (d ++ [(d.length, v)]) r

theorem extend_spec : ∀ (l : List (List S × List O)) (d : Dict S O), Numbered d →
    Numbered (extend d l) ∧ (extend d l).map Prod.snd = d.map Prod.snd ++ l
  | [], d, h => ⟨h, by simp [extend]⟩
  | v :: r, d, h => by
    obtain ⟨h1, h2⟩ := extend_spec r _ (numbered_snoc h v)
    exact ⟨h1, by rw [extend, h2]; simp⟩

theorem extend_append (l m : List (List S × List O)) (d : Dict S O) : extend d (l ++ m) = extend (extend d l) m := by
  induction l generalizing d with
  | nil => rfl
  | cons v r ih => exact ih _

/-- The remaining arguments start with systems, or there are none. -/
def AtGroup : List (CArg S O) → Prop
  | [] => True
  | .systems l :: _ => 2 ≤ l.length
  | .opers _ :: _ => False

theorem addMore_spec (ss : List S) (rest : List (CArg S O)) (hrest : AtGroup rest) : ∀ (os : List (List O)) (d : Dict S O),
    (∀ o ∈ os, 2 ≤ o.length) → Numbered d →
    addMore ss (os.map CArg.opers ++ rest) d = (true, rest, extend d (os.map fun o => (ss, o)))
  | [], d, _, _ => by
    cases rest with
    | nil => rfl
    | cons a r =>
      cases a with
      | opers l => exact absurd hrest (by simp [AtGroup])
      | systems l =>
        have : 2 ≤ l.length := hrest
        simp [addMore, extend, this]
  | o :: os, d, ho, hd => by
    have h2 : 2 ≤ o.length := ho o (by simp)
    rw [List.map_cons, List.cons_append, addMore, if_pos h2, put_numbered hd,
      addMore_spec ss rest hrest os _ (fun x hx => ho x (by simp [hx])) (numbered_snoc hd _)]
    rfl

/-- A group of arguments: systems, and one or more tuples of operators for them. -/
structure Group (S O : Type) where
  systems : List S
  first : List O
  more : List (List O)

/-- The arguments of a group. -/
def Group.args (g : Group S O) : List (CArg S O) := .systems g.systems :: .opers g.first :: g.more.map .opers

/-- The terms of a group. -/
def Group.terms (g : Group S O) : List (List S × List O) := (g.first :: g.more).map fun o => (g.systems, o)

/-- Two or more systems, the first of them single, and two or more operators in each tuple. -/
def Group.Good (single : S → Bool) (g : Group S O) : Prop :=
  2 ≤ g.systems.length ∧ (∀ s ∈ g.systems.head?, single s = true) ∧ 2 ≤ g.first.length ∧ ∀ o ∈ g.more, 2 ≤ o.length

/-- **C70.** `addTerm(systems, operators, operators, ..., systems, operators, ...)` ends, and appends one entry per tuple of operators, with
the systems given before it, in the order of the arguments; the entries already present stay as they are. -/
theorem C70_arguments (single : S → Bool) : ∀ (gs : List (Group S O)) (d : Dict S O), (∀ g ∈ gs, g.Good single) → Numbered d →
    ∃ d', (∀ n, gs.length < n → addTerm single n (gs.flatMap Group.args) d = .done d') ∧ Numbered d' ∧
      d'.map Prod.snd = d.map Prod.snd ++ gs.flatMap Group.terms
  | [], d, _, hd => ⟨d, fun n hn => by
      obtain ⟨m, rfl⟩ := Nat.exists_eq_succ_of_ne_zero (Nat.pos_iff_ne_zero.1 hn)
      rfl, hd, by simp⟩
  | g :: gs, d, hg, hd => by
    obtain ⟨h1, h2, h3, h4⟩ := hg g (by simp)
    obtain ⟨ss, o, os⟩ := g
    cases ss with
    | nil => simp at h1
    | cons s l =>
      have hs : single s = true := h2 s (by simp)
      have hd1 : Numbered (extend d ((o :: os).map fun o => (s :: l, o))) := (extend_spec _ d hd).1
      obtain ⟨d', e1, e2, e3⟩ := C70_arguments single gs _ (fun x hx => hg x (by simp [hx])) hd1
      refine ⟨d', fun n hn => ?_, e2, ?_⟩
      · obtain ⟨m, rfl⟩ := Nat.exists_eq_succ_of_ne_zero (show n ≠ 0 by simp at hn; omega)
        have hat : AtGroup (gs.flatMap Group.args) := by
          cases gs with
          | nil => trivial
          | cons g' gs' => exact (hg g' (by simp)).1
        dsimp only at h3 h4
        rw [List.flatMap_cons, Group.args, List.cons_append, List.cons_append, addTerm, if_pos hs]
        simp only [h3, if_true, put_numbered hd]
        rw [addMore_spec (s :: l) _ hat os _ h4 (numbered_snoc hd _)]
        exact e1 m (by simp at hn; omega)
      · rw [e3, (extend_spec _ d hd).2]
        simp [Group.terms]

/-- Jaynes-Cummings (`couplings.py:57-61`): the cavity 0 and the qubit 1, two tuples of operators. -/
example : addTerm (fun _ => true) 3 [.systems [0, 1], .opers ["destroy", "Jp"], .systems [0, 1], .opers ["create", "Jm"]] ([] : Dict ℕ String) =
    .done [(0, ([0, 1], ["destroy", "Jp"])), (1, ([0, 1], ["create", "Jm"]))] := rfl

/-- **C70 is false of the code**: two lists of systems one after the other, the first of two or more and with a single system first, make
`addTerm` loop without end. -/
theorem C70_endless (single : S → Bool) (s : S) (l l' : List S) (r : List (CArg S O)) (d : Dict S O) (hs : single s = true)
    (hl : l ≠ []) (hl' : 2 ≤ l'.length) (n : ℕ) : addTerm single n (.systems (s :: l) :: .systems l' :: r) d = .running := by
  have h2 : 2 ≤ (s :: l).length := by
    cases l with
    | nil => exact absurd rfl hl
    | cons a b => simp
  induction n with
  | zero => rfl
  | succ n ih =>
    rw [addTerm, if_pos hs]
    simp only [hl', if_true, addMore, h2, decide_true]
    exact ih

/-- **C70 is false of the code**: when the first system is a composite the whole call, with all the terms that follow, is ignored. -/
theorem C70_composite_first (single : S → Bool) (s : S) (l : List S) (r : List (CArg S O)) (d : Dict S O) (hs : single s = false) (n : ℕ) :
    addTerm single (n + 1) (.systems (s :: l) :: r) d = .done d := by
  simp [addTerm, hs]

/-- **C70 is false of the code**: a single operator for a single system raises, so such a coupling cannot even be added. -/
theorem C70_one_operator (single : S → Bool) (s : S) (l : List S) (o : O) (r : List (CArg S O)) (d : Dict S O) (hs : single s = true)
    (n : ℕ) : addTerm single (n + 1) (.systems (s :: l) :: .opers [o] :: r) d = .raised d := by
  simp [addTerm, hs]

/-! ### Removal -/

variable [DecidableEq S]

/-- **C70 is false of the code**: removing a system from a coupling raises exactly when the coupling has a term with that system. -/
theorem C70_removal_raises (sys : S) (d : Dict S O) :
    ((∃ v ∈ d, sys ∈ v.2.1) → ∃ d', removeCoupled sys d = .raised d') ∧ ((∀ v ∈ d, sys ∉ v.2.1) → removeCoupled sys d = .done d) := by
  have key : ∀ (r : Dict S O) (i : ℕ), ((∃ v ∈ r, sys ∈ v.2.1) → ∃ d', removeFrom sys d i r = .raised d') ∧
      ((∀ v ∈ r, sys ∉ v.2.1) → removeFrom sys d i r = .done d) := by
    intro r
    induction r with
    | nil => intro i; simp [removeFrom]
    | cons v r ih =>
      intro i
      constructor
      · rintro ⟨x, hx, hs⟩
        by_cases hv : sys ∈ v.2.1
        · rw [removeFrom, if_pos hv]
          split
          · exact ⟨_, rfl⟩
          · exact ⟨_, rfl⟩
        · rw [removeFrom, if_neg hv]
          refine (ih (i + 1)).1 ⟨x, ?_, hs⟩
          rcases List.mem_cons.1 hx with rfl | hx
          · exact absurd hs hv
          · exact hx
      · intro h
        rw [removeFrom, if_neg (h v (by simp))]
        exact (ih (i + 1)).2 fun x hx => h x (by simp [hx])
  exact key d 0

/-- **C70 is false of the code**: hence a system that takes part in a coupling cannot be removed from its composite: the couplings are
treated first, and the exception comes before anything is removed from the composite. -/
theorem C70_coupled_stays (sys : S) : ∀ cs : List (Dict S O), (∃ c ∈ cs, ∃ v ∈ c, sys ∈ v.2.1) →
    ∃ cs', removeCouplings sys cs = .raised cs'
  | [], h => by simp at h
  | c :: r, h => by
    by_cases hc : ∃ v ∈ c, sys ∈ v.2.1
    · obtain ⟨d', hd⟩ := (C70_removal_raises sys c).1 hc
      exact ⟨_, by rw [removeCouplings, hd]⟩
    · obtain ⟨x, hx, hv⟩ := h
      have hr : ∃ c ∈ r, ∃ v ∈ c, sys ∈ v.2.1 := by
        rcases List.mem_cons.1 hx with rfl | hx
        · exact absurd hv hc
        · exact ⟨x, hx, hv⟩
      obtain ⟨cs', h'⟩ := C70_coupled_stays sys r hr
      push_neg at hc
      exact ⟨_, by rw [removeCouplings, (C70_removal_raises sys c).2 hc, h']⟩

/-- When no coupling has the system, the couplings with terms stay as they are. -/
theorem C70_uncoupled_kept (sys : S) : ∀ cs : List (Dict S O), (∀ c ∈ cs, ∀ v ∈ c, sys ∉ v.2.1) →
    removeCouplings sys cs = .done (cs.filter fun c => !c.isEmpty)
  | [], _ => rfl
  | c :: r, h => by
    rw [removeCouplings, (C70_removal_raises sys c).2 (h c (by simp)), C70_uncoupled_kept sys r fun x hx => h x (by simp [hx])]
    cases c <;> simp

/-- **C70 is false of the code**: the exception leaves a coupling without the first term with that system, but with its other terms with
it; the next `addTerm` then replaces another term instead of adding one, and the next removal raises `KeyError`. -/
theorem C70_after_exception : ∃ d d' d'' : Dict ℕ String,
    addTerm (fun _ => true) 4 [.systems [0, 1], .opers ["a", "b"], .systems [1, 2], .opers ["c", "d"], .systems [0, 2], .opers ["e", "f"]] [] =
      .done d ∧
    removeCoupled 0 d = .raised d' ∧ d'.map (fun x => x.2.1) = [[1, 2], [0, 2]] ∧
    addTerm (fun _ => true) 2 [.systems [3, 4], .opers ["g", "h"]] d' = .done d'' ∧ d''.map (fun x => x.2.1) = [[1, 2], [3, 4]] ∧
    removeCoupled 1 d'' = .raised d'' :=
  ⟨_, _, _, rfl, rfl, rfl, rfl, rfl, rfl⟩

/-- **C70 is false of the code**: the copy of a coupling has its strength but none of its terms, so its Hamiltonian is zero. -/
theorem C70_copy_empty (root : Sys) (c : Coup) : (copyCoup c).strength = c.strength ∧ coupHam root (copyCoup c) = some .zero := ⟨rfl, rfl⟩

/-! ### Examples -/

/-- Two qubits with an exchange coupling, in the arguments' order second qubit first. -/
def exch (g : ℂ) : Coup := ⟨g, [([[1], [0]], [op2 0 1 0 0, op2 0 0 1 0]), ([[1], [0]], [op2 0 0 1 0, op2 0 1 0 0])]⟩

/-- The hypotheses of `C70_hamiltonian_partial` hold for two qubits with frequencies `w` and the exchange coupling. -/
theorem exch_reasonable (w g : ℂ) : Reasonable pair (fun p => if p = [0] ∨ p = [1] then [⟨op2 1 0 0 (-1), 1, w⟩] else [])
    (fun p => if p = [] then [exch g] else []) := by
  have hap : Apart [1] [0] := Or.inr ⟨[], 0, [], 1, [], rfl, rfl, by decide⟩
  have htb : ∀ a b c d a' b' c' d' : ℂ, TwoBody pair ([[1], [0]], [op2 a b c d, op2 a' b' c' d']) := by
    intro a b c d a' b' c' d'
    obtain ⟨q1, e1, -, f1⟩ := pair_fits a b c d 1 (by decide)
    obtain ⟨q0, e0, -, f0⟩ := pair_fits a' b' c' d' 0 (by decide)
    exact ⟨_, _, _, _, q1, q0, rfl, hap, e1, e0, f1, f0⟩
  intro p q hq
  rcases p with _ | ⟨i, p⟩
  · obtain rfl : pair = q := by simpa [sysAt] using hq
    refine ⟨fun _ => ⟨by simp, ?_⟩, fun h => absurd rfl h⟩
    intro c hc e he
    simp only [if_true, List.mem_singleton] at hc
    subst hc
    simp only [exch, List.mem_cons, List.not_mem_nil, or_false] at he
    rcases he with rfl | rfl <;> exact htb _ _ _ _ _ _ _ _
  · have hi : i = 0 ∨ i = 1 := by
      by_contra hn
      have h2 : [node (some false) 2 1 2 [], node (some false) 2 2 1 []][i]? = none := by simp; omega
      simp [pair, sysAt, h2] at hq
    have hlen : p = [] := by
      rcases p with _ | ⟨j, p⟩
      · rfl
      · rcases hi with rfl | rfl <;> simp [pair, sysAt] at hq
    subst hlen
    obtain ⟨q', e, hd, f⟩ := pair_fits 1 0 0 (-1) i (by omega)
    obtain rfl := Option.some.inj (hq.symm.trans e)
    have hk : q.kind ≠ some true := by
      rcases hi with rfl | rfl
      · obtain rfl : _ = q := by simpa [pair, sysAt] using hq
        decide
      · obtain rfl : _ = q := by simpa [pair, sysAt] using hq
        decide
    refine ⟨fun h => absurd h hk, fun _ => ⟨by simp, ?_⟩⟩
    intro t ht
    have : t = ⟨op2 1 0 0 (-1), 1, w⟩ := by
      rcases hi with rfl | rfl <;> simpa using ht
    subst this
    exact f

example (w g : ℂ) : ∃ v, hamOld pair (fun p => if p = [0] ∨ p = [1] then [⟨op2 1 0 0 (-1), 1, w⟩] else [])
    (fun p => if p = [] then [exch g] else []) [] pair = some v ∧ v.Sized 4 := by
  obtain ⟨v, v', h1, -, h3, -⟩ := C70_hamiltonian_partial pair_wf.1 pair_wf.2 _ _ (exch_reasonable w g)
  exact ⟨v, h1, h3⟩

end Verif.Old
