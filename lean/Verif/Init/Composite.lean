import Verif.Init.Access
import Verif.PTrace.Props

/-!
# C79: `compositeState`

`states.py:472-517`.  The function is not used by the classes; it builds the same states from the dimensions and the inputs of the
parts.  Simplifications: those of `Verif.Toolbox.States` (exact numbers, natural dimensions) and `Verif.NMat.Basic`; `sparse` only
selects the format of the result.
-/
namespace Verif.Init
open NMat St

/-- `compositeState` (`states.py:472-517`): the tensor product of `superPos(dim, exs)` for the pairs of `zip(dimensions, excitations)`.
`none` is an exception. -/
noncomputable def compositeState (dimensions : List ℕ) (excitations : List Toolbox.Exc) : Option Mat :=
  match (dimensions.zip excitations).mapM fun p => (Toolbox.superPos p.1 p.2).map ofKet with
  | none => none
  | some l => tensorProd (l.map .mat)

/-- `basisBra` (`states.py:147-175`): the transpose of `basis`. -/
def basisBra (d : ℕ) (k : ℤ) : Option Mat :=
  (Toolbox.basisOpt d k).map fun b => ⟨1, d, fun i j => (ofKet b).entry j i⟩

/-- `zerosKet` (`states.py:177-207`): the one explicit entry is at row zero, so that no row at all is a ValueError of SciPy. -/
def zerosKet (d : ℕ) : Option Mat := if d = 0 then none else some (zeros d 1)

/-- The states of the parts: what `superPos` returns for the dimension and the input of each of them. -/
def Parts (dims : List ℕ) (excs : List Toolbox.Exc) (ks : List Mat) : Prop :=
  List.Forall₂ (fun (p : ℕ × Toolbox.Exc) A => ∃ k : Toolbox.Ket p.1, Toolbox.superPos p.1 p.2 = some k ∧ A = ofKet k)
    (dims.zip excs) ks

theorem compositeState_some {dims : List ℕ} {excs : List Toolbox.Exc} {ψ : Mat} :
    compositeState dims excs = some ψ ↔ ∃ ks, Parts dims excs ks ∧ tensorProd (ks.map .mat) = some ψ := by
  unfold compositeState Parts
  have key : ∀ ks, (dims.zip excs).mapM (fun p => (Toolbox.superPos p.1 p.2).map ofKet) = some ks ↔
      List.Forall₂ (fun (p : ℕ × Toolbox.Exc) A => ∃ k : Toolbox.Ket p.1, Toolbox.superPos p.1 p.2 = some k ∧ A = ofKet k)
        (dims.zip excs) ks := by
    intro ks
    rw [Toolbox.mapM_option_eq_some]
    simp only [Option.map_eq_some_iff, eq_comm (a := ofKet _)]
  constructor
  · intro h
    split at h
    · cases h
    · next l hl => exact ⟨l, (key l).1 hl, h⟩
  · rintro ⟨ks, h1, h2⟩
    rw [(key ks).2 h1]
    exact h2

theorem parts_rows {dims : List ℕ} {excs : List Toolbox.Exc} {ks : List Mat} (h : Parts dims excs ks) :
    ks.map Mat.rows = dims.take excs.length ∧ (∀ k ∈ ks, k.cols = 1 ∧ innerProd k = 1) := by
  induction dims generalizing excs ks with
  | nil => cases h; simp
  | cons d dims ih =>
    cases excs with
    | nil => cases h; simp
    | cons e excs =>
      cases h with
      | cons h1 h2 =>
        obtain ⟨k, hk, rfl⟩ := h1
        obtain ⟨e1, e2⟩ := ih h2
        refine ⟨by simp [e1, ofKet], ?_⟩
        intro A hA
        rcases List.mem_cons.1 hA with rfl | hA
        · exact ⟨rfl, ofKet_unit k (superPos_unit hk)⟩
        · exact e2 A hA

/-- **C79 (what is accepted).** A state is returned exactly when there is at least one dimension and one input, and `superPos` accepts
each input for its dimension. -/
theorem C79_accepted_iff (dims : List ℕ) (excs : List Toolbox.Exc) :
    (∃ ψ, compositeState dims excs = some ψ) ↔
      dims ≠ [] ∧ excs ≠ [] ∧ ∀ p ∈ dims.zip excs, ∃ k, Toolbox.superPos p.1 p.2 = some k := by
  constructor
  · rintro ⟨ψ, h⟩
    obtain ⟨ks, h1, h2⟩ := compositeState_some.1 h
    have hne : dims.zip excs ≠ [] := by
      intro h0
      unfold Parts at h1
      rw [h0] at h1
      cases h1
      simp [tensorProd] at h2
    refine ⟨by rintro rfl; simp at hne, by rintro rfl; simp at hne, ?_⟩
    intro p hp
    unfold Parts at h1
    generalize dims.zip excs = z at h1 hp
    clear h h2 hne
    induction h1 with
    | nil => simp at hp
    | cons h _ ih =>
      rcases List.mem_cons.1 hp with rfl | hp
      · obtain ⟨k, hk, -⟩ := h
        exact ⟨k, hk⟩
      · exact ih hp
  · rintro ⟨h1, h2, h3⟩
    have : ∃ ks, Parts dims excs ks ∧ ks.length = (dims.zip excs).length := by
      unfold Parts
      generalize dims.zip excs = z at h3
      clear h1 h2
      induction z with
      | nil => exact ⟨[], .nil, rfl⟩
      | cons p z ih =>
        obtain ⟨k, hk⟩ := h3 p (by simp)
        obtain ⟨ks, e1, e2⟩ := ih fun q hq => h3 q (by simp [hq])
        exact ⟨ofKet k :: ks, .cons ⟨k, hk, rfl⟩ e1, by simp [e2]⟩
    obtain ⟨ks, e1, e2⟩ := this
    have hne : ks ≠ [] := by
      rintro rfl
      cases dims <;> cases excs <;> simp at *
    obtain ⟨ψ, hψ⟩ := tensorProd_ne_none (xs := ks.map Arg.mat) (by simpa using hne)
    exact ⟨ψ, compositeState_some.2 ⟨ks, e1, hψ⟩⟩

/-- **C79 (shape and norm).** The result is a column of norm one, with as many rows as the product of the dimensions that have an
input. -/
theorem C79_unit_partial (dims : List ℕ) (excs : List Toolbox.Exc) (ψ : Mat) (h : compositeState dims excs = some ψ) :
    ψ.rows = (dims.take excs.length).prod ∧ ψ.cols = 1 ∧ innerProd ψ = 1 := by
  obtain ⟨ks, h1, h2⟩ := compositeState_some.1 h
  obtain ⟨e1, e2⟩ := parts_rows h1
  obtain ⟨s1, s2⟩ := C38_shape _ ψ h2
  refine ⟨?_, ?_, ?_⟩
  · rw [s1, ← e1, List.map_map]; rfl
  · rw [s2, List.map_map]
    apply List.prod_eq_one
    intro x hx
    obtain ⟨A, hA, rfl⟩ := List.mem_map.1 hx
    exact (e2 A hA).1
  · rw [C38_norm ks (fun k hk => (e2 k hk).1) ψ h2]
    apply List.prod_eq_one
    intro x hx
    obtain ⟨A, hA, rfl⟩ := List.mem_map.1 hx
    exact (e2 A hA).2

/-- The probability of finding level `n` that an input asks for, in a space of dimension `d`. -/
noncomputable def asked (d : ℕ) : Toolbox.Exc → ℕ → ℝ
  | .int m, n => if (n : ℤ) = m then 1 else 0
  | .list ns, n => if (n : ℤ) ∈ ns then 1 / ((Finset.univ.filter fun j : Fin d => ((j : ℕ) : ℤ) ∈ ns).card : ℝ) else 0
  | .dict items, n => (Toolbox.lookupC items n).re / ∑ j : Fin d, (Toolbox.lookupC items (j : ℕ)).re
  | .other, _ => 0

/-- The keys of a dictionary are different. -/
def Keys : Toolbox.Exc → Prop
  | .dict items => (items.map Prod.fst).Nodup
  | _ => True

theorem superPos_int_range {d : ℕ} {n : ℤ} {pop : Bool} {k : Toolbox.Ket d} (h : Toolbox.superPos d (.int n) pop = some k) :
    0 ≤ n ∧ n < d := by
  simp only [Toolbox.superPos, Toolbox.superPosItems, Option.bind_eq_bind, Option.bind_some, List.mapM_cons, List.mapM_nil,
    Toolbox.basisOpt] at h
  by_contra hc
  rw [if_neg hc] at h
  simp at h

theorem superPos_asked {d : ℕ} {e : Toolbox.Exc} (he : Keys e) {k : Toolbox.Ket d} (h : Toolbox.superPos d e = some k) (n : ℕ)
    (hn : n < d) : ‖(ofKet k).entry n 0‖ ^ 2 = asked d e n := by
  simp only [ofKet, hn, dite_true]
  cases e with
  | int m =>
    obtain ⟨h0, h1⟩ := superPos_int_range h
    rw [Toolbox.C37_int d m true h0 h1] at h
    obtain rfl := Option.some.inj h
    simp only [Toolbox.basis, Matrix.of_apply, asked]
    by_cases hc : (n : ℤ) = m
    · rw [if_pos (by omega), if_pos hc]; simp
    · rw [if_neg (by omega), if_neg hc]; simp
  | list ns => exact (Toolbox.C37_list ns true k h).2 ⟨n, hn⟩
  | dict items => exact (Toolbox.C37_populations items he k h).2 ⟨n, hn⟩
  | other => simp [Toolbox.superPos, Toolbox.superPosItems] at h

theorem digits_ones : ∀ n : ℕ, digits (List.replicate n 1) 0 = List.replicate n 0
  | 0 => rfl
  | n + 1 => by
    rw [List.replicate_succ, digits, List.replicate_succ]
    simp [digits_ones n]

theorem parts_amplitude : ∀ {dims : List ℕ} {excs : List Toolbox.Exc} {ks : List Mat}, Parts dims excs ks →
    dims.length = excs.length → (∀ e ∈ excs, Keys e) → ∀ is : List ℕ, List.Forall₂ (· < ·) is dims →
    ‖(List.zipWith (fun (k : Mat) i => k.entry i 0) ks is).prod‖ ^ 2 =
      (List.zipWith (fun (p : ℕ × Toolbox.Exc) i => asked p.1 p.2 i) (dims.zip excs) is).prod
  | [], [], _, h, _, _, is, _ => by cases h; simp
  | d :: dims, e :: excs, _, .cons (b := A) h1 h2, hl, hk, i :: is, .cons hi his => by
    obtain ⟨k, hk1, rfl⟩ := h1
    have ih := parts_amplitude h2 (by simpa using hl) (fun e he => hk e (by simp [he])) is his
    simp only [List.zipWith_cons_cons, List.prod_cons, List.zip_cons_cons, norm_mul, mul_pow, ih,
      superPos_asked (hk e (by simp)) hk1 i hi]

theorem digits_lt : ∀ (ds : List ℕ) (i : ℕ), i < ds.prod → List.Forall₂ (· < ·) (digits ds i) ds
  | [], i, _ => .nil
  | d :: ds, i, h => by
    rw [List.prod_cons] at h
    have hp : 0 < ds.prod := Nat.pos_of_ne_zero (by rintro h0; simp [h0] at h)
    exact .cons (Nat.div_lt_of_lt_mul (by rwa [mul_comm] at h)) (digits_lt ds _ (Nat.mod_lt _ hp))

/-- **C79 (populations).** With an input for every dimension the probability of finding the parts in given levels (the mixed-radix digits
of the index, the first part being the slowest) is the product of the probabilities that the inputs ask for. -/
theorem C79_populations (dims : List ℕ) (excs : List Toolbox.Exc) (ψ : Mat) (hl : dims.length = excs.length)
    (hk : ∀ e ∈ excs, Keys e) (h : compositeState dims excs = some ψ) (i : ℕ) (hi : i < dims.prod) :
    ‖ψ.entry i 0‖ ^ 2 =
      (List.zipWith (fun (p : ℕ × Toolbox.Exc) n => asked p.1 p.2 n) (dims.zip excs) (digits dims i)).prod := by
  obtain ⟨ks, h1, h2⟩ := compositeState_some.1 h
  obtain ⟨e1, e2⟩ := parts_rows h1
  obtain ⟨s1, s2, -⟩ := C79_unit_partial dims excs ψ h
  rw [← hl, List.take_length] at s1
  rw [← hl, List.take_length] at e1
  have hr : (ks.map Arg.mat).map (fun a => a.toMat.rows) = dims := by rw [List.map_map, ← e1]; rfl
  have hc : (ks.map Arg.mat).map (fun a => a.toMat.cols) = List.replicate ks.length 1 := by
    rw [List.map_map, List.eq_replicate_iff]
    refine ⟨by simp, fun b hb => ?_⟩
    obtain ⟨A, hA, rfl⟩ := List.mem_map.1 hb
    exact (e2 A hA).1
  rw [C38_entry _ ψ h2 i 0 (by rwa [s1]) (by rw [s2]; exact Nat.one_pos), hr, hc, digits_ones,
    ← parts_amplitude h1 hl hk (digits dims i) (digits_lt dims i hi)]
  congr 3
  have hlen : ks.length = (digits dims i).length := by
    rw [(digits_lt dims i hi).length_eq, ← e1]; simp
  clear * - hlen
  generalize digits dims i = is at hlen
  induction ks generalizing is with
  | nil => simp
  | cons k ks ih =>
    cases is with
    | nil => simp at hlen
    | cons j is =>
      simp only [List.map_cons, List.length_cons, List.replicate_succ, List.zip_cons_cons, List.zipWith_cons_cons]
      rw [ih is (by simpa using hlen)]
      rfl

theorem parts_get {dims : List ℕ} {excs : List Toolbox.Exc} {ks : List Mat} (h : Parts dims excs ks) {n d : ℕ} {e : Toolbox.Exc}
    (hd : dims[n]? = some d) (he : excs[n]? = some e) : ∃ k, Toolbox.superPos d e = some k ∧ ks[n]? = some (ofKet k) := by
  induction dims generalizing excs ks n with
  | nil => simp at hd
  | cons d' dims ih =>
    cases excs with
    | nil => simp at he
    | cons e' excs =>
      cases h with
      | cons h1 h2 =>
        cases n with
        | zero =>
          simp only [List.getElem?_cons_zero, Option.some.injEq] at hd he
          subst hd he
          obtain ⟨k, hk, rfl⟩ := h1
          exact ⟨k, hk, by simp⟩
        | succ n =>
          simp only [List.getElem?_cons_succ] at hd he ⊢
          exact ih h2 hd he

theorem keptOf_one (n : ℕ) (As : List Mat) (A : Mat) (h : As[n]? = some A) : PTrace.keptOf [(n : ℤ)] As = [A] := by
  have key : ∀ (As : List Mat) (m n : ℕ) (A : Mat), As[n]? = some A →
      ((As.zipIdx m).filter fun p => decide ((p.2 : ℤ) ∈ [((m + n : ℕ) : ℤ)])).map Prod.fst = [A] := by
    intro As
    induction As with
    | nil => intro m n A h; simp at h
    | cons B As ih =>
      intro m n A h
      cases n with
      | zero =>
        simp only [List.getElem?_cons_zero, Option.some.injEq] at h
        subst h
        have : (As.zipIdx (m + 1)).filter (fun p => decide ((p.2 : ℤ) ∈ [((m + 0 : ℕ) : ℤ)])) = [] := by
          rw [List.filter_eq_nil_iff]
          rintro ⟨C, j⟩ hj
          have := (List.mem_zipIdx hj).1
          simp only [List.mem_singleton, decide_eq_true_eq]
          omega
        simp only [List.zipIdx_cons, List.filter_cons, this]
        simp
      | succ n =>
        simp only [List.getElem?_cons_succ] at h
        have := ih (m + 1) n A h
        simp only [List.zipIdx_cons, List.filter_cons]
        rw [if_neg (by simp; omega), ← this, show m + (n + 1) = m + 1 + n from by omega]
  have := key As 0 n A h
  simpa [PTrace.keptOf] using this

theorem mem_tracedOf {keep : List ℤ} {As : List Mat} {A : Mat} (h : A ∈ PTrace.tracedOf keep As) : A ∈ As := by
  obtain ⟨⟨B, j⟩, hp, rfl⟩ := List.mem_map.1 h
  exact (List.mem_zipIdx' (List.mem_filter.1 hp).1).2 ▸ List.getElem_mem _

theorem trace_outer (k : Mat) (hk : k.cols = 1) : trace (mul k (hc k)) = innerProd k := by
  simp only [innerProd, Option.getD_none, trace, mul, hc, hk, Nat.min_self, Finset.sum_range_one, mul_comm]

/-- **C79 (parts).** With an input for every dimension, tracing out all parts but one leaves the state that was asked for that part. -/
theorem C79_reduced (dims : List ℕ) (excs : List Toolbox.Exc) (ψ : Mat) (hl : dims.length = excs.length)
    (h : compositeState dims excs = some ψ) (hne : dims.prod ≠ 1) (n d : ℕ) (e : Toolbox.Exc) (hd : dims[n]? = some d)
    (he : excs[n]? = some e) :
    ∃ k R, Toolbox.superPos d e = some k ∧ PTrace.partialTrace [(n : ℤ)] dims ψ = some R ∧ Same R (mul (ofKet k) (hc (ofKet k))) := by
  obtain ⟨ks, h1, h2⟩ := compositeState_some.1 h
  obtain ⟨e1, e2⟩ := parts_rows h1
  obtain ⟨s1, s2, -⟩ := C79_unit_partial dims excs ψ h
  rw [← hl, List.take_length] at s1 e1
  obtain ⟨k, hk, hkn⟩ := parts_get h1 hd he
  have hn : n < ks.length := (List.getElem?_eq_some_iff.1 hkn).1
  have hm := C38_mixed_product (ks.map fun A => (A, hc A)) (by simp [hc]) ψ (hc ψ) (by simpa [Function.comp_def] using h2)
    (by simpa [Function.comp_def] using C38_hc ks ψ h2)
  rw [List.map_map] at hm
  have hm' : tensorProd ((ks.map fun A => mul A (hc A)).map .mat) = some (mul ψ (hc ψ)) := by
    rw [List.map_map]; exact hm
  obtain ⟨R, T, r1, r2, r3⟩ := PTrace.C45_product [(n : ℤ)] (ks.map fun A => mul A (hc A)) (by simp [mul, hc])
    ⟨by simp, by simp, by simpa using hn⟩ _ hm'
  have hrows : (ks.map fun A => mul A (hc A)).map Mat.rows = dims := by
    rw [List.map_map, ← e1]; rfl
  rw [hrows, ← PTrace.C45_ket _ _ ψ s2 (by rwa [s1])] at r1
  refine ⟨k, R, hk, r1, ?_⟩
  rw [keptOf_one n (ks.map fun A => mul A (hc A)) (mul (ofKet k) (hc (ofKet k))) (by simp [hkn])] at r2
  rw [List.map_cons, List.map_nil, single_rows, Option.some.injEq] at r2
  have htr : ((PTrace.tracedOf [(n : ℤ)] (ks.map fun A => mul A (hc A))).map trace).prod = 1 := by
    apply List.prod_eq_one
    intro x hx
    obtain ⟨A, hA, rfl⟩ := List.mem_map.1 hx
    have hA' := mem_tracedOf hA
    obtain ⟨B, hB, rfl⟩ := List.mem_map.1 hA'
    rw [trace_outer B (e2 B hB).1, (e2 B hB).2]
  rw [htr, ← r2] at r3
  exact r3.trans ⟨rfl, rfl, fun i _ j _ => one_mul _⟩

/-- The input of one part as a system of its own. -/
def leafOf (d : ℕ) : St := node (some false) d false .none none []

/-- **C79 (initial states).** The state is the one a composite of single systems with these dimensions creates for the list of the inputs. -/
theorem C79_initial_state (dims : List ℕ) (l : List Inp) (ψ : Mat) (hl : dims.length = l.length) (h2 : ∀ d ∈ dims, 2 ≤ d)
    (h : compositeState dims (l.map toExc) = some ψ) :
    create (node (some true) 1 false .none none (dims.map leafOf)) (.list l) = some (some ψ) := by
  obtain ⟨ks, h1, h3⟩ := compositeState_some.1 h
  have hne : dims ≠ [] := ((C79_accepted_iff _ _).1 ⟨ψ, h⟩).1
  have hF : ∀ (dims : List ℕ) (l : List Inp) (ks : List Mat), dims.length = l.length → Parts dims (l.map toExc) ks →
      FactorsL (dims.map leafOf) l ks := by
    intro dims
    induction dims with
    | nil =>
      intro l ks _ h
      cases h
      exact .nil l
    | cons d dims ih =>
      intro l ks hl h
      cases l with
      | nil => simp at hl
      | cons i l =>
        cases h with
        | cons h1 h2 =>
          obtain ⟨k, hk, rfl⟩ := h1
          exact .cons _ _ _ _ [ofKet k] _ (.single _ _ _ _ _ _ _ k (by simp) hk) (ih l _ (by simpa using hl) h2)
  have hp : properL (dims.map leafOf) := by
    clear * - h2
    induction dims with
    | nil => simp [properL]
    | cons d dims ih =>
      simp only [List.map_cons, properL]
      exact ⟨by simp [leafOf, St.proper, properL, h2 d (by simp)], ih fun d hd => h2 d (by simp [hd])⟩
  obtain ⟨φ, c1, c2⟩ := C32_accepted (Factors.list 1 false .none none _ l ks (hF dims l ks hl h1)) (by
    simp only [St.proper]
    exact ⟨by simp, by simpa using hne, hp⟩)
  rw [c1]
  rw [h3] at c2
  rw [Option.some.inj c2]

/-- **C79 is false of the code** when there are not as many inputs as dimensions: what is left over is ignored without an error, and the
state has the wrong number of rows. -/
theorem C79_truncated (dims more : List ℕ) (excs extra : List Toolbox.Exc) (hl : dims.length = excs.length) :
    compositeState (dims ++ more) excs = compositeState dims excs ∧ compositeState dims (excs ++ extra) = compositeState dims excs := by
  unfold compositeState
  constructor
  · rw [show (dims ++ more).zip excs = dims.zip excs from by
      have := List.zip_append (l₁ := dims) (l₂ := excs) (r₁ := more) (r₂ := ([] : List Toolbox.Exc)) hl
      simpa using this]
  · rw [show dims.zip (excs ++ extra) = dims.zip excs from by
      have := List.zip_append (l₁ := dims) (l₂ := excs) (r₁ := ([] : List ℕ)) (r₂ := extra) hl
      simpa using this]

theorem superPos_basis (d n : ℕ) (h : n < d) : Toolbox.superPos d (.int n) = some (Toolbox.basis d n) := by
  have := Toolbox.C37_int d n true (by omega) (by exact_mod_cast h)
  simpa using this

/-- Three qubits, two inputs: a state of two qubits. -/
theorem C79_rows_witness : ∃ ψ, compositeState [2, 2, 2] [.int 0, .int 1] = some ψ ∧ ψ.rows = 4 ∧ [2, 2, 2].prod = 8 := by
  obtain ⟨ψ, h⟩ := (C79_accepted_iff [2, 2, 2] [.int 0, .int 1]).2 ⟨by simp, by simp, by
    intro p hp
    simp only [List.zip_cons_cons, List.zip_nil_right, List.mem_cons, List.not_mem_nil, or_false] at hp
    rcases hp with rfl | rfl
    · exact ⟨_, superPos_basis 2 0 (by omega)⟩
    · exact ⟨_, superPos_basis 2 1 (by omega)⟩⟩
  exact ⟨ψ, h, by simpa using (C79_unit_partial _ _ ψ h).1, rfl⟩

/-- A qubit in an equal superposition and a qutrit in its last level. -/
theorem two_parts : ∃ ψ, compositeState [2, 3] [.list [0, 1], .int 2] = some ψ := by
  refine (C79_accepted_iff _ _).2 ⟨by simp, by simp, ?_⟩
  intro p hp
  simp only [List.zip_cons_cons, List.zip_nil_right, List.mem_cons, List.not_mem_nil, or_false] at hp
  rcases hp with rfl | rfl
  · have := (Toolbox.C37_refused_iff 2 [(0, 1), (1, 1)] (by simp)).not.2 (by simp)
    obtain ⟨k, hk⟩ := Option.ne_none_iff_exists'.1 this
    exact ⟨k, hk⟩
  · exact ⟨_, superPos_basis 3 2 (by omega)⟩

/-- Six rows; level zero of the qubit and level two of the qutrit is row two, with probability one half; row one is empty. -/
example : ∃ ψ, compositeState [2, 3] [.list [0, 1], .int 2] = some ψ ∧ ψ.rows = 6 ∧ ‖ψ.entry 2 0‖ ^ 2 = 1 / 2 ∧
    ‖ψ.entry 1 0‖ ^ 2 = 0 := by
  obtain ⟨ψ, h⟩ := two_parts
  have hk : ∀ e ∈ ([.list [0, 1], .int 2] : List Toolbox.Exc), Keys e := by simp [Keys]
  refine ⟨ψ, h, by simpa using (C79_unit_partial _ _ ψ h).1, ?_, ?_⟩
  · rw [C79_populations _ _ ψ rfl hk h 2 (by decide)]
    have hc : (Finset.univ.filter fun j : Fin 2 => ((j : ℕ) : ℤ) ∈ ([0, 1] : List ℤ)).card = 2 := by decide
    simp only [digits, asked, List.zip_cons_cons, List.zip_nil_right, List.zipWith_cons_cons, List.zipWith_nil_right, hc]
    simp
  · rw [C79_populations _ _ ψ rfl hk h 1 (by decide)]
    simp [digits, asked]

/-- Tracing out the qubit leaves the qutrit in its last level. -/
example : ∃ ψ R, compositeState [2, 3] [.list [0, 1], .int 2] = some ψ ∧ PTrace.partialTrace [1] [2, 3] ψ = some R ∧
    R.entry 2 2 = 1 := by
  obtain ⟨ψ, h⟩ := two_parts
  obtain ⟨k, R, h1, h2, h3⟩ := C79_reduced _ _ ψ rfl h (by decide) 1 3 (.int 2) rfl rfl
  refine ⟨ψ, R, h, h2, ?_⟩
  have h4 := superPos_basis 3 2 (by omega)
  simp only [Nat.cast_ofNat] at h4
  rw [h4, Option.some.injEq] at h1
  rw [h3.2.2 2 (by rw [h3.1]; show 2 < 3; omega) 2 (by rw [h3.2.1]; show 2 < 3; omega), ← h1]
  simp [mul, ofKet, hc, Toolbox.basis]

/-- The same state is created by a composite of a qubit and a qutrit. -/
example : ∃ ψ, create (node (some true) 1 false .none none [leafOf 2, leafOf 3]) (.list [.list [.int 0, .int 1], .int 2]) = some (some ψ) := by
  obtain ⟨ψ, h⟩ := two_parts
  exact ⟨ψ, C79_initial_state [2, 3] [.list [.int 0, .int 1], .int 2] ψ rfl (by simp) (by simpa [toExc, ints] using h)⟩

/-- **C79 (bras and zero kets).** `basisBra` is the conjugate transpose of the basis ket, a row that gives one with that ket and zero with
the others; `zerosKet` is a column of zeros, for every dimension except zero. -/
theorem C79_bra (d : ℕ) (k : ℤ) :
    (basisBra d k = none ↔ ¬ (0 ≤ k ∧ k < d)) ∧
    ∀ b, basisBra d k = some b → b.rows = 1 ∧ b.cols = d ∧ Same b (hc (ofKet (Toolbox.basis d k.toNat))) ∧
      ∀ m < d, (mul b (ofKet (Toolbox.basis d m))).entry 0 0 = if (m : ℤ) = k then 1 else 0 := by
  unfold basisBra Toolbox.basisOpt
  by_cases h : 0 ≤ k ∧ k < d
  · simp only [h, and_self, if_true, Option.map_some, reduceCtorEq, not_true_eq_false, Option.some.injEq, forall_eq', true_and]
    refine ⟨⟨rfl, rfl, fun i hi j hj => ?_⟩, fun m hm => ?_⟩
    · have hi0 : i = 0 := by simpa using hi
      subst hi0
      simp only [hc, ofKet, Toolbox.basis, Matrix.of_apply]
      have hj' : j < d := hj
      simp only [hj', dite_true]
      split <;> simp
    · simp only [mul, ofKet, Toolbox.basis, Matrix.of_apply]
      rw [Finset.sum_eq_single m]
      · simp only [hm, dite_true, if_true, mul_one]
        by_cases hmk : (m : ℤ) = k
        · rw [if_pos (by omega), if_pos hmk]
        · rw [if_neg (by omega), if_neg hmk]
      · intro j hj hjm
        simp only [Finset.mem_range.1 hj, dite_true, hjm, if_false, mul_zero]
      · intro hc
        exact absurd (Finset.mem_range.2 hm) hc
  · simp [h]

theorem C79_zero (d : ℕ) : (zerosKet d = none ↔ d = 0) ∧
    ∀ z, zerosKet d = some z → z.rows = d ∧ z.cols = 1 ∧ ∀ i < d, z.entry i 0 = 0 := by
  unfold zerosKet
  by_cases h : d = 0
  · simp [h]
  · simp only [h, if_false, reduceCtorEq, Option.some.injEq, true_and, forall_eq']
    exact ⟨rfl, rfl, fun _ _ => rfl⟩

end Verif.Init
