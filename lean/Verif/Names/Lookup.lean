import Verif.Names.Registry
import Mathlib.Data.List.Induction
import Mathlib.Order.Basic

/-!
# Lookup by name object, name and alias (C21, C22)
-/
namespace Verif.Names
variable {V : Type}

/-- The ways to refer to object `o`: its name object, its name or one of its aliases. -/
def Form (σ : Env) (o : Nat) (k : Key) : Prop := k = .ali o ∨ ∃ s, some s ∈ (σ o).members ∧ k = .str s

/-- No name or alias is shared by two of the objects below `n`. -/
def Disjoint (σ : Env) (n : Nat) : Prop := ∀ o < n, ∀ o' < n, ∀ m, m ∈ (σ o).members → m ∈ (σ o').members → o = o'

/-- The keys of a dictionary are name objects, each once. -/
def ObjKeys (n : Nat) (d : ADict V) : Prop := (∀ e ∈ d, ∃ o < n, e.1 = .ali o) ∧ (d.map Prod.fst).Nodup

theorem form_eq {σ : Env} {n o o' : Nat} {k : Key} (hd : Disjoint σ n) (ho : o < n) (ho' : o' < n) (hk : Form σ o k) :
    keyEq σ k (.ali o') = true ↔ o' = o := by
  rcases hk with rfl | ⟨s, hs, rfl⟩
  · constructor
    · intro h
      simp only [keyEq, List.any_eq_true, decide_eq_true_eq] at h
      obtain ⟨m, h1, h2⟩ := h
      exact hd _ ho' _ ho m h1 h2
    · rintro rfl; exact keyEq_self σ _
  · simp only [keyEq, List.any_eq_true, beq_iff_eq]
    constructor
    · rintro ⟨m, h1, rfl⟩; exact hd _ ho' _ ho _ h1 hs
    · rintro rfl; exact ⟨_, hs, rfl⟩

theorem objKeys_wf {σ : Env} {n : Nat} {d : ADict V} (hd : Disjoint σ n) (h : ObjKeys n d) : WF σ d := by
  obtain ⟨h1, h2⟩ := h
  induction d with
  | nil => simp [WF]
  | cons e d ih =>
    simp only [List.map_cons, List.nodup_cons] at h2
    have := ih (fun x hx => h1 x (by simp [hx])) h2.2
    simp only [WF, List.map_cons, List.nodup_cons] at this ⊢
    refine ⟨?_, this⟩
    intro hmem
    obtain ⟨x, hx, hh⟩ := List.mem_map.mp hmem
    obtain ⟨o, ho, he⟩ := h1 e (by simp)
    obtain ⟨o', ho', hx'⟩ := h1 x (by simp [hx])
    rw [he, hx'] at hh
    simp only [hashOf] at hh
    have : o' = o := hd _ ho' _ ho (σ o).name (by rw [AliasObj.members, hh]; simp) (by rw [AliasObj.members]; simp)
    subst this
    exact h2.1 (by rw [he, ← hx']; exact List.mem_map_of_mem hx)

theorem split_unique {l r l' r' : ADict V} {e e' : Key × V} (hn : ((l ++ e :: r).map Prod.fst).Nodup) (hk : e.1 = e'.1)
    (h : l ++ e :: r = l' ++ e' :: r') : l = l' ∧ e = e' ∧ r = r' := by
  induction l generalizing l' with
  | nil =>
    cases l' with
    | nil => simp at h; exact ⟨rfl, h.1, h.2⟩
    | cons x l' =>
      simp only [List.nil_append, List.cons_append, List.cons.injEq] at h
      simp only [List.nil_append, List.map_cons, List.nodup_cons, h.2, List.map_append, List.mem_append, List.mem_cons] at hn
      exact absurd (Or.inr (Or.inl hk)) hn.1
  | cons x l ih =>
    cases l' with
    | nil =>
      simp only [List.nil_append, List.cons_append, List.cons.injEq] at h
      simp only [List.cons_append, List.map_cons, List.nodup_cons, List.map_append, List.mem_append, List.mem_cons] at hn
      rw [h.1] at hn
      exact absurd (Or.inr (Or.inl hk.symm)) hn.1
    | cons y l' =>
      simp only [List.cons_append, List.cons.injEq] at h
      simp only [List.cons_append, List.map_cons, List.nodup_cons] at hn
      obtain ⟨h1, h2, h3⟩ := ih hn.2 h.2
      exact ⟨by rw [h.1, h1], h2, h3⟩

/-- **C21** (dictionaries keyed by objects with disjoint names): every way to refer to an object gives the same result of every
operation. -/
theorem forms_agree {σ : Env} {n : Nat} {d : ADict V} (hd : Disjoint σ n) (h : ObjKeys n d) {o : Nat} (ho : o < n) {k : Key}
    (hk : Form σ o k) :
    (∀ v, (Key.ali o, v) ∈ d → aget σ d k = some v ∧ ahas σ d k = true ∧
      (∀ u, aset σ d k u = aset σ d (.ali o) u ∧ aget σ (aset σ d k u) (.ali o) = some u) ∧
      adel σ d k = adel σ d (.ali o) ∧ apop σ d k = apop σ d (.ali o) ∧ (∀ d', adel σ d k = some d' → aget σ d' k = none)) ∧
    (Key.ali o ∉ d.map Prod.fst → aget σ d k = none ∧ ahas σ d k = false ∧ adel σ d k = none ∧ apop σ d k = none) := by
  have hwf := objKeys_wf hd h
  have heq : ∀ k', Form σ o k' → ∀ e ∈ d, (keyEq σ k' e.1 = true ↔ e.1 = .ali o) := by
    intro k' hk' e he
    obtain ⟨o', ho', hx⟩ := h.1 e he
    rw [hx, form_eq hd ho ho' hk']; simp
  refine ⟨?_, ?_⟩
  · intro v hv
    obtain ⟨l, r, hsp⟩ := List.append_of_mem hv
    have hspec : ∀ k', Form σ o k' → aget σ d k' = some v ∧ (∀ u, aset σ d k' u = l ++ (.ali o, u) :: r) ∧
        adel σ d k' = some (l ++ r) ∧ ahas σ d k' = true ∧ apop σ d k' = some (v, l ++ r) := by
      intro k' hk'
      rcases ops_spec d hwf k' with ⟨l', e, r', h1, h2, h3, h4, h5, h6, h7⟩ | ⟨h1, _⟩
      · have he : e.1 = .ali o := (heq k' hk' e (by rw [h1]; simp)).mp h2
        have hn := h.2
        rw [hsp] at hn
        obtain ⟨e1, e2, e3⟩ := split_unique hn he.symm (hsp.symm.trans h1)
        subst e1 e3
        rw [← e2] at h3 h4 h7
        exact ⟨h3, h4, h5, h6, h7⟩
      · have := h1 _ hv
        rw [(heq k' hk' _ hv).mpr rfl] at this; simp at this
    obtain ⟨a1, a2, a3, a4, a5⟩ := hspec k hk
    obtain ⟨b1, b2, b3, b4, b5⟩ := hspec (.ali o) (Or.inl rfl)
    refine ⟨a1, a4, fun u => ⟨by rw [a2, b2], ?_⟩, by rw [a3, b3], by rw [a5, b5], ?_⟩
    · rw [a2, ← b2]; exact C25_get_set d hwf _ u
    · intro d' hd'
      have hw' := C25_wf_del d d' hwf k hd'
      rw [a3] at hd'
      have hde := Option.some.inj hd'
      refine (C25_get d' hw' k).2.1.mpr ?_
      intro e he
      rw [← hde] at he
      by_contra hne
      have hmem : e ∈ d := by rw [hsp]; rcases List.mem_append.mp he with h | h <;> simp [h]
      have h1 := (heq k hk e hmem).mp (by simpa using hne)
      have hn := h.2
      rw [hsp] at hn
      simp only [List.map_append, List.map_cons, List.nodup_append, List.nodup_cons, List.mem_cons, List.mem_map] at hn
      rcases List.mem_append.mp he with h | h
      · exact hn.2.2 _ ⟨e, h, rfl⟩ _ (Or.inl rfl) h1
      · exact hn.2.1.1 ⟨e, h, h1⟩
  · intro hno
    rcases ops_spec d hwf k with ⟨l', e, r', h1, h2, _⟩ | ⟨_, h2, _, h4, h5, h6⟩
    · have hmem : e ∈ d := by rw [h1]; simp
      exact absurd (List.mem_map.mpr ⟨e, hmem, (heq k hk e hmem).mp h2⟩) hno
    · exact ⟨h2, h5, h4, h6⟩

/-- A string which is neither name nor alias of an object is not found. -/
theorem no_form {σ : Env} {n : Nat} {d : ADict V} (hd : Disjoint σ n) (h : ObjKeys n d) {s : String}
    (hs : ∀ o < n, some s ∉ (σ o).members) : aget σ d (.str s) = none := by
  refine (C25_get d (objKeys_wf hd h) _).2.1.mpr ?_
  intro e he
  obtain ⟨o', ho', hx⟩ := h.1 e he
  rw [hx]
  by_contra hne
  have : keyEq σ (.str s) (.ali o') = true := by simpa using hne
  simp only [keyEq, List.any_eq_true, beq_iff_eq] at this
  obtain ⟨m, h1, rfl⟩ := this
  exact hs o' ho' h1

/-! ## Reachable states -/

variable {T : List Cls}

/-- The statement only creates objects of classes of the table. -/
def Op.valid (T : List Cls) : Op → Prop
  | .create c _ => c < T.length
  | _ => True

/-- No alias of an object equals the default name of another one. -/
def NoClash (w : World) : Prop := ∀ (i j : Nat) (a b : AliasObj), i ≠ j → w.objs[i]? = some a → w.objs[j]? = some b →
  b.name ∉ a.alias.map some

/-- Facts about names which hold in every reachable state. -/
structure InvN (T : List Cls) (w : World) : Prop where
  owned : Owned T w.counters
  names : ∀ (o : Nat) (a : AliasObj), w.objs[o]? = some a → ∃ c i n, c < T.length ∧
    a.name = some (defaultName (labelOf T c) i n) ∧ n ≤ cnt T w.counters c i
  inj : ∀ (o o' : Nat) (a b : AliasObj), w.objs[o]? = some a → w.objs[o']? = some b → a.name = b.name → o = o'

/-- Facts about the dictionaries which hold in every reachable state without clashes. -/
structure InvR (w : World) : Prop where
  reg : w.registry = (List.range w.objs.length).map fun o => (Key.ali o, o)
  disj : Disjoint (envOf w.objs) w.objs.length
  sub : ObjKeys w.objs.length w.subSys
  subVal : ∀ e ∈ w.subSys, ∀ o, e.1 = .ali o → e.2 = o

/-- Objects never disappear, keep their name and only gain aliases. -/
def Grows (w w' : World) : Prop := ∀ (o : Nat) (a : AliasObj), w.objs[o]? = some a →
  ∃ a', w'.objs[o]? = some a' ∧ a'.name = a.name ∧ ∀ s ∈ a.alias, s ∈ a'.alias

theorem grows_refl (w : World) : Grows w w := fun _ a h => ⟨a, h, rfl, fun _ h => h⟩

theorem grows_of_objs {w w' : World} (h : w'.objs = w.objs) : Grows w w' := fun o a ha => ⟨a, by rw [h]; exact ha, rfl, fun _ h => h⟩

theorem setAlias_some {w w' : World} {o : Nat} {s : String} (h : setAlias w o s = some w') :
    (∀ e ∈ w.registry, keyEq (envOf w.objs) e.1 (.str s) = true → e.2 = o) ∧
    w' = { w with objs := w.objs.modify o (AliasObj.addAlias · s) } := by
  unfold setAlias at h
  split at h
  · simp at h
  · rename_i hn
    refine ⟨?_, (Option.some.inj h).symm⟩
    intro e he hk
    simp only [List.any_eq_true, Bool.and_eq_true, bne_iff_ne, ne_eq, not_exists, not_and, not_not] at hn
    exact hn e he hk

theorem modify_get {l : List AliasObj} {o x : Nat} {a : AliasObj} {s : String}
    (h : (l.modify o (AliasObj.addAlias · s))[x]? = some a) :
    ∃ b, l[x]? = some b ∧ a = if o = x then b.addAlias s else b := by
  rw [List.getElem?_modify] at h
  obtain ⟨b, hb, rfl⟩ := Option.map_eq_some_iff.mp h
  exact ⟨b, hb, by split <;> rfl⟩

theorem step_grows (w : World) (op : Op) : Grows w (stepW T w op) := by
  cases op with
  | create c i =>
    intro o a h
    refine ⟨a, ?_, rfl, fun _ h => h⟩
    simp only [stepW, create]
    rw [List.getElem?_append_left (List.getElem?_eq_some_iff.mp h).1]; exact h
  | giveAlias o s =>
    simp only [stepW]
    split
    · cases hs : setAlias w o s with
      | none => exact grows_refl w
      | some w' =>
        obtain ⟨_, rfl⟩ := setAlias_some hs
        intro x a h
        refine ⟨if o = x then a.addAlias s else a, ?_, ?_, ?_⟩
        · simp only [Option.getD_some]
          rw [List.getElem?_modify, h]; rfl
        · split <;> rfl
        · intro t ht; split
          · simp [AliasObj.addAlias, ht]
          · exact ht
    · exact grows_refl w
  | add o =>
    simp only [stepW]; split
    · exact grows_of_objs rfl
    · exact grows_refl w
  | addKey k =>
    simp only [stepW]
    cases getByNameOrAlias w k with
    | none => exact grows_refl w
    | some o => exact grows_of_objs rfl
  | remove k =>
    simp only [stepW]
    cases h : removeSubSys w k with
    | none => exact grows_refl w
    | some w' =>
      apply grows_of_objs
      simp only [removeSubSys, Option.bind_eq_some_iff, Option.map_eq_some_iff] at h
      obtain ⟨o, _, r, _, rfl⟩ := h
      rfl

theorem noClash_of_grows {w w' : World} (hg : Grows w w') (h : NoClash w') : NoClash w := by
  intro i j a b hij ha hb hmem
  obtain ⟨a', ha', _, hal⟩ := hg i a ha
  obtain ⟨b', hb', hbn, _⟩ := hg j b hb
  apply h i j a' b' hij ha' hb'
  rw [hbn]
  obtain ⟨s, hs, he⟩ := List.mem_map.mp hmem
  exact List.mem_map.mpr ⟨s, hal s hs, he⟩

theorem step_invN (hT : GoodTable T) (w : World) (op : Op) (hop : op.valid T) (h : InvN T w) : InvN T (stepW T w op) := by
  have keep : ∀ w' : World, w'.objs = w.objs → w'.counters = w.counters → InvN T w' := by
    intro w' h1 h2
    exact ⟨h2 ▸ h.owned, by rw [h1, h2]; exact h.names, by rw [h1]; exact h.inj⟩
  cases op with
  | create c i =>
    have hc : c < T.length := hop
    have hinc := increment_cnt w.counters h.owned c i
    have e : namer T (increment T w.counters c i) c i =
        defaultName (labelOf T c) i (cnt T (increment T w.counters c i) c i) := by cases i <;> rfl
    simp only [stepW, create]
    have hnew : ∀ (o : Nat) (a : AliasObj), w.objs[o]? = some a → a.name ≠ some (namer T (increment T w.counters c i) c i) := by
      intro o a ha hn
      obtain ⟨c', i', n, h1, h2, h3⟩ := h.names o a ha
      rw [h2, e] at hn
      obtain ⟨rfl, rfl, rfl⟩ := defaultName_unique hT h1 hc (Option.some.inj hn)
      rw [hinc c' h1 i'] at h3
      simp only [and_self, if_true] at h3
      omega
    refine ⟨increment_owned _ h.owned c i, ?_, ?_⟩
    · intro o a ha
      by_cases ho : o < w.objs.length
      · rw [List.getElem?_append_left ho] at ha
        obtain ⟨c', i', n, h1, h2, h3⟩ := h.names o a ha
        exact ⟨c', i', n, h1, h2, by simp only [hinc c' h1 i']; omega⟩
      · rw [List.getElem?_append_right (by omega)] at ha
        have : o - w.objs.length = 0 := by
          by_contra hne
          rw [List.getElem?_eq_none (by simp; omega)] at ha; simp at ha
        rw [this] at ha
        simp only [List.length_cons, List.length_nil, Nat.zero_add, List.getElem?_cons_zero, Option.some.injEq] at ha
        exact ⟨c, i, cnt T (increment T w.counters c i) c i, hc, by rw [← ha, e], Nat.le_refl _⟩
    · have last : ∀ (o : Nat) (a : AliasObj), ¬ o < w.objs.length →
          (w.objs ++ [(⟨some (namer T (increment T w.counters c i) c i), []⟩ : AliasObj)])[o]? = some a →
          o = w.objs.length ∧ a.name = some (namer T (increment T w.counters c i) c i) := by
        intro o a ho ha
        rw [List.getElem?_append_right (by omega)] at ha
        have : o - w.objs.length = 0 := by
          by_contra hne
          rw [List.getElem?_eq_none (by simp; omega)] at ha; simp at ha
        rw [this] at ha
        simp only [List.getElem?_cons_zero, Option.some.injEq] at ha
        exact ⟨by omega, by rw [← ha]⟩
      intro o o' a b ha hb hab
      by_cases ho : o < w.objs.length <;> by_cases ho' : o' < w.objs.length
      · rw [List.getElem?_append_left ho] at ha
        rw [List.getElem?_append_left ho'] at hb
        exact h.inj o o' a b ha hb hab
      · rw [List.getElem?_append_left ho] at ha
        exact absurd (hab.trans (last o' b ho' hb).2) (hnew o a ha)
      · rw [List.getElem?_append_left ho'] at hb
        exact absurd (hab.symm.trans (last o a ho ha).2) (hnew o' b hb)
      · rw [(last o a ho ha).1, (last o' b ho' hb).1]
  | giveAlias o s =>
    simp only [stepW]
    split
    · cases hs : setAlias w o s with
      | none => exact h
      | some w' =>
        obtain ⟨_, rfl⟩ := setAlias_some hs
        refine ⟨h.owned, ?_, ?_⟩
        · intro x a ha
          obtain ⟨b, hb, rfl⟩ := modify_get ha
          have := h.names x b hb
          split <;> exact this
        · intro x y a b ha hb hab
          obtain ⟨a', ha', rfl⟩ := modify_get ha
          obtain ⟨b', hb', rfl⟩ := modify_get hb
          refine h.inj x y a' b' ha' hb' ?_
          revert hab
          split <;> split <;> exact id
    · exact h
  | add o => simp only [stepW]; split <;> first | exact keep _ rfl rfl | exact h
  | addKey k =>
    simp only [stepW]
    cases getByNameOrAlias w k with
    | none => exact h
    | some o => exact keep _ rfl rfl
  | remove k =>
    simp only [stepW]
    cases hr : removeSubSys w k with
    | none => exact h
    | some w' =>
      simp only [removeSubSys, Option.bind_eq_some_iff, Option.map_eq_some_iff] at hr
      obtain ⟨o, _, r, _, rfl⟩ := hr
      exact keep _ rfl rfl

theorem envOf_get {l : List AliasObj} {o : Nat} (ho : o < l.length) : l[o]? = some (envOf l o) := by
  simp [envOf, ho]

theorem reg_objKeys (n : Nat) : ObjKeys n ((List.range n).map fun o => (Key.ali o, o)) := by
  refine ⟨?_, ?_⟩
  · intro e he
    obtain ⟨o, ho, rfl⟩ := List.mem_map.mp he
    exact ⟨o, List.mem_range.mp ho, rfl⟩
  · rw [List.map_map]
    exact (List.nodup_range).map fun a b h => by simpa using h

theorem addSub_inv {w : World} (h : InvR w) {o : Nat} (ho : o < w.objs.length) : InvR (addSubSys w o) := by
  refine ⟨h.reg, h.disj, ?_, ?_⟩
  · have hwf := objKeys_wf h.disj h.sub
    simp only [addSubSys]
    rcases C25_set w.subSys hwf (.ali o) o with ⟨l, e, r, h1, h2, h3⟩ | ⟨h1, h2⟩
    · rw [h3]
      have := h.sub
      rw [h1] at this
      refine ⟨?_, by simpa using this.2⟩
      intro x hx
      rcases List.mem_append.mp hx with hx | hx
      · exact this.1 x (by simp [hx])
      · rcases List.mem_cons.mp hx with rfl | hx
        · exact this.1 e (by simp)
        · exact this.1 x (by simp [hx])
    · rw [h2]
      refine ⟨?_, ?_⟩
      · intro x hx
        rcases List.mem_append.mp hx with hx | hx
        · exact h.sub.1 x hx
        · rw [List.mem_singleton.mp hx]; exact ⟨o, ho, rfl⟩
      · simp only [List.map_append, List.map_cons, List.map_nil, List.nodup_append, h.sub.2, List.nodup_singleton, true_and,
          List.mem_singleton]
        rintro _ hm _ rfl rfl
        obtain ⟨e, he, hee⟩ := List.mem_map.mp hm
        have := h1 e he
        rw [hee, keyEq_self] at this; simp at this
  · have hwf := objKeys_wf h.disj h.sub
    simp only [addSubSys]
    rcases C25_set w.subSys hwf (.ali o) o with ⟨l, e, r, h1, h2, h3⟩ | ⟨h1, h2⟩
    · rw [h3]
      obtain ⟨o', ho', he⟩ := h.sub.1 e (by rw [h1]; simp)
      have hoo : o' = o := by
        rw [he] at h2; exact (form_eq h.disj ho ho' (Or.inl rfl)).mp h2
      have hsv := h.subVal
      rw [h1] at hsv
      intro x hx y hy
      rcases List.mem_append.mp hx with hx | hx
      · exact hsv x (by simp [hx]) y hy
      · rcases List.mem_cons.mp hx with rfl | hx
        · simp only [he, Key.ali.injEq] at hy; simp only; omega
        · exact hsv x (by simp [hx]) y hy
    · rw [h2]
      intro x hx y hy
      rcases List.mem_append.mp hx with hx | hx
      · exact h.subVal x hx y hy
      · rw [List.mem_singleton.mp hx] at hy ⊢; simpa using hy

theorem lookup_lt {w : World} (h : InvR w) {k : Key} {o : Nat} (hg : getByNameOrAlias w k = some o) : o < w.objs.length := by
  have hwf := objKeys_wf h.disj (reg_objKeys w.objs.length)
  rw [getByNameOrAlias, h.reg] at hg
  obtain ⟨e, he, _⟩ := (C25_get _ hwf k).1 o hg
  obtain ⟨x, hx, hxe⟩ := List.mem_map.mp he
  simp only [Prod.mk.injEq] at hxe
  rw [← hxe.2]; exact List.mem_range.mp hx

theorem step_invR (w : World) (op : Op) (hN : InvN T w) (hN' : InvN T (stepW T w op))
    (hc : NoClash (stepW T w op)) (h : InvR w) : InvR (stepW T w op) := by
  cases op with
  | create c i =>
    have hN'' := hN'
    have hc' := hc
    simp only [stepW, create] at hN' hc ⊢
    set objs := w.objs ++ [(⟨some (namer T (increment T w.counters c i) c i), []⟩ : AliasObj)] with hobjs
    have hlen : objs.length = w.objs.length + 1 := by simp [hobjs]
    have hold : ∀ x < w.objs.length, envOf objs x = envOf w.objs x := by
      intro x hx; simp [envOf, hobjs, List.getElem?_append_left hx]
    have hnew : envOf objs w.objs.length = ⟨some (namer T (increment T w.counters c i) c i), []⟩ := by
      simp [envOf, hobjs]
    have hmem : ∀ x < w.objs.length, ∀ m ∈ (envOf w.objs x).members, m ∈ (envOf objs w.objs.length).members → False := by
      intro x hx m h1 h2
      rw [hnew] at h2
      simp only [AliasObj.members, List.map_nil, List.mem_cons, List.not_mem_nil, or_false] at h2
      subst h2
      have g1 : objs[x]? = some (envOf objs x) := envOf_get (by omega)
      have g2 : objs[w.objs.length]? = some (envOf objs w.objs.length) := envOf_get (by omega)
      simp only [AliasObj.members, List.mem_cons] at h1
      rcases h1 with h1 | h1
      · have := hN'.inj x w.objs.length _ _ g1 g2 (by rw [hold x hx, hnew, ← h1])
        omega
      · exact hc x w.objs.length _ _ (by omega) g1 g2 (by rw [hnew, hold x hx]; exact h1)
    have hdisj : Disjoint (envOf objs) objs.length := by
      intro a ha b hb m hma hmb
      rw [hlen] at ha hb
      by_cases ha' : a < w.objs.length <;> by_cases hb' : b < w.objs.length
      · rw [hold a ha'] at hma; rw [hold b hb'] at hmb; exact h.disj a ha' b hb' m hma hmb
      · rw [hold a ha'] at hma
        have : b = w.objs.length := by omega
        subst this; exact absurd hmb fun hmb => hmem a ha' m hma hmb
      · rw [hold b hb'] at hmb
        have : a = w.objs.length := by omega
        subst this; exact absurd hma fun hma => hmem b hb' m hmb hma
      · omega
    refine ⟨?_, hdisj, ?_, h.subVal⟩
    · rw [h.reg, hlen, List.range_succ, List.map_append]
      have hok : ObjKeys objs.length ((List.range w.objs.length).map fun o => (Key.ali o, o)) := by
        have := reg_objKeys w.objs.length
        exact ⟨fun e he => by obtain ⟨o, ho, hx⟩ := this.1 e he; exact ⟨o, by omega, hx⟩, this.2⟩
      rcases C25_set _ (objKeys_wf hdisj hok) (.ali w.objs.length) w.objs.length with ⟨l, e, r, h1, h2, _⟩ | ⟨_, h2⟩
      · have he : e ∈ (List.range w.objs.length).map fun o => (Key.ali o, o) := by rw [h1]; simp
        obtain ⟨x, hx, rfl⟩ := List.mem_map.mp he
        have hx := List.mem_range.mp hx
        have := (form_eq hdisj (o := w.objs.length) (o' := x) (by omega) (by omega) (Or.inl rfl)).mp h2
        omega
      · rw [h2]; rfl
    · exact ⟨fun e he => by obtain ⟨o, ho, hx⟩ := h.sub.1 e he; exact ⟨o, by simp only [hlen]; omega, hx⟩, h.sub.2⟩
  | giveAlias o s =>
    simp only [stepW] at hN' hc ⊢
    by_cases ho : o < w.objs.length
    · rw [if_pos ho] at hN' hc ⊢
      cases hs : setAlias w o s with
      | none => exact h
      | some w' =>
        obtain ⟨hfree, rfl⟩ := setAlias_some hs
        have hlen : (w.objs.modify o (AliasObj.addAlias · s)).length = w.objs.length := List.length_modify ..
        have henv : ∀ x < w.objs.length, envOf (w.objs.modify o (AliasObj.addAlias · s)) x =
            if o = x then (envOf w.objs x).addAlias s else envOf w.objs x := by
          intro x hx
          simp only [envOf]
          rw [List.getElem?_modify, List.getElem?_eq_getElem hx]
          simp only [Option.map_eq_map, Option.map_some, Option.getD_some]
        have hmem : ∀ x < w.objs.length, ∀ m, m ∈ (envOf (w.objs.modify o (AliasObj.addAlias · s)) x).members →
            m ∈ (envOf w.objs x).members ∨ (x = o ∧ m = some s) := by
          intro x hx m hm
          rw [henv x hx] at hm
          split at hm
          · rename_i hox
            simp only [AliasObj.members, AliasObj.addAlias, List.map_append, List.map_cons, List.map_nil, List.mem_cons,
              List.mem_append, List.not_mem_nil, or_false] at hm ⊢
            rcases hm with hm | hm | hm
            · exact Or.inl (Or.inl hm)
            · exact Or.inl (Or.inr hm)
            · exact Or.inr ⟨hox.symm, hm⟩
          · exact Or.inl hm
        have hs' : ∀ x < w.objs.length, some s ∈ (envOf w.objs x).members → x = o := by
          intro x hx hm
          refine hfree (.ali x, x) ?_ ?_
          · rw [h.reg]; exact List.mem_map.mpr ⟨x, List.mem_range.mpr hx, rfl⟩
          · simp only [keyEq, List.any_eq_true, beq_iff_eq]; exact ⟨_, hm, rfl⟩
        refine ⟨?_, ?_, ?_, h.subVal⟩
        · simp only [Option.getD_some, hlen]; exact h.reg
        · simp only [Option.getD_some, hlen]
          intro a ha b hb m hma hmb
          rcases hmem a ha m hma with h1 | ⟨h1, h1'⟩ <;> rcases hmem b hb m hmb with h2 | ⟨h2, h2'⟩
          · exact h.disj a ha b hb m h1 h2
          · subst h2'; rw [h2]; exact hs' a ha h1
          · subst h1'; rw [h1]; exact (hs' b hb h2).symm
          · rw [h1, h2]
        · simp only [Option.getD_some, hlen]; exact h.sub
    · rw [if_neg ho]; exact h
  | add o =>
    simp only [stepW]
    split
    · rename_i ho; exact addSub_inv h ho
    · exact h
  | addKey k =>
    simp only [stepW]
    cases hg : getByNameOrAlias w k with
    | none => exact h
    | some o => exact addSub_inv h (lookup_lt h hg)
  | remove k =>
    simp only [stepW]
    cases hr : removeSubSys w k with
    | none => exact h
    | some w' =>
      simp only [removeSubSys, Option.bind_eq_some_iff, Option.map_eq_some_iff] at hr
      obtain ⟨o, _, r, hp, rfl⟩ := hr
      have hwf := objKeys_wf h.disj h.sub
      rcases ops_spec w.subSys hwf (.ali o) with ⟨l, e, rr, h1, _, _, _, _, _, h7⟩ | ⟨_, _, _, _, _, h6⟩
      · rw [h7] at hp
        have hr : r.2 = l ++ rr := by rw [← Option.some.inj hp]
        have hsub : (l ++ rr).Sublist w.subSys := by rw [h1]; simp
        refine ⟨h.reg, h.disj, ?_, ?_⟩
        · simp only [Option.getD_some, hr]
          exact ⟨fun e he => h.sub.1 e (hsub.subset he), h.sub.2.sublist (hsub.map _)⟩
        · simp only [Option.getD_some, hr]
          exact fun e he => h.subVal e (hsub.subset he)
      · rw [h6] at hp; simp at hp

theorem runW_snoc (ops : List Op) (op : Op) : runW T (ops ++ [op]) = stepW T (runW T ops) op := by
  simp [runW, List.foldl_append]

theorem run_invN (hT : GoodTable T) (ops : List Op) (hv : ∀ op ∈ ops, op.valid T) : InvN T (runW T ops) := by
  induction ops using List.reverseRecOn with
  | nil => exact ⟨owned_init hT, by intro o a h; simp [runW, emptyWorld] at h, by intro o o' a b h; simp [runW, emptyWorld] at h⟩
  | append_singleton ops op ih =>
    rw [runW_snoc]
    exact step_invN hT _ op (hv op (by simp)) (ih fun x hx => hv x (by simp [hx]))

theorem run_invR (hT : GoodTable T) (ops : List Op) (hv : ∀ op ∈ ops, op.valid T) (hc : NoClash (runW T ops)) :
    InvR (runW T ops) := by
  induction ops using List.reverseRecOn with
  | nil =>
    exact ⟨rfl, by intro o h; simp [runW, emptyWorld] at h, ⟨by intro e h; simp [runW, emptyWorld] at h, by simp [runW, emptyWorld]⟩,
      by intro e h; simp [runW, emptyWorld] at h⟩
  | append_singleton ops op ih =>
    have hv' : ∀ x ∈ ops, x.valid T := fun x hx => hv x (by simp [hx])
    have hN := run_invN hT ops hv'
    have hN' := run_invN hT (ops ++ [op]) hv
    rw [runW_snoc] at hc hN' ⊢
    exact step_invR _ op hN hN' hc (ih hv' (noClash_of_grows (step_grows _ op) hc))

/-! ## The properties -/

/-- **C22 (partial)** as long as no object has been given an alias equal to the default name of another object, a name or alias
identifies exactly the object it was given to: no two objects share one, and the lookup by string or name object returns
that object and fails for everything else.  Without the proviso the claim is false: `C22_hidden`. -/
theorem C22_lookup_partial (hT : GoodTable T) (ops : List Op) (hv : ∀ op ∈ ops, op.valid T) (hc : NoClash (runW T ops)) :
    let w := runW T ops
    (∀ (o o' : Nat) (a b : AliasObj) (m : Option String), w.objs[o]? = some a → w.objs[o']? = some b → m ∈ a.members →
      m ∈ b.members → o = o') ∧
    (∀ s o, getByNameOrAlias w (.str s) = some o ↔ ∃ a, w.objs[o]? = some a ∧ some s ∈ a.members) ∧
    (∀ o < w.objs.length, getByNameOrAlias w (.ali o) = some o) := by
  intro w
  have hR : InvR w := run_invR hT ops hv hc
  have hreg := reg_objKeys w.objs.length
  have hin : ∀ o < w.objs.length, (Key.ali o, o) ∈ w.registry := by
    intro o ho; rw [hR.reg]; exact List.mem_map.mpr ⟨o, List.mem_range.mpr ho, rfl⟩
  have hlt : ∀ {o a}, w.objs[o]? = some a → o < w.objs.length := fun h => (List.getElem?_eq_some_iff.mp h).1
  have henv : ∀ {o a}, w.objs[o]? = some a → envOf w.objs o = a := fun h => by
    have := envOf_get (hlt h); rw [h] at this; exact (Option.some.inj this).symm
  refine ⟨?_, ?_, ?_⟩
  · intro o o' a b m ha hb hma hmb
    exact hR.disj o (hlt ha) o' (hlt hb) m (by rw [henv ha]; exact hma) (by rw [henv hb]; exact hmb)
  · intro s o
    have hre := hR.reg
    constructor
    · intro h
      by_contra hno
      have ho := lookup_lt hR h
      by_cases hex : ∃ x < w.objs.length, some s ∈ (envOf w.objs x).members
      · obtain ⟨x, hx, hm⟩ := hex
        have := ((forms_agree hR.disj (d := w.registry) (by rw [hre]; exact hreg) hx (k := .str s) (Or.inr ⟨s, hm, rfl⟩)).1 x
          (hin x hx)).1
        rw [getByNameOrAlias, this] at h
        have hxo := Option.some.inj h
        subst hxo
        exact hno ⟨_, envOf_get hx, hm⟩
      · have := no_form hR.disj (d := w.registry) (by rw [hre]; exact hreg) (s := s) fun x hx hm => hex ⟨x, hx, hm⟩
        rw [getByNameOrAlias, this] at h; simp at h
    · rintro ⟨a, ha, hm⟩
      exact ((forms_agree hR.disj (d := w.registry) (by rw [hre]; exact hreg) (hlt ha) (k := .str s)
        (Or.inr ⟨s, by rw [henv ha]; exact hm, rfl⟩)).1 o (hin o (hlt ha))).1
  · intro o ho
    exact ((forms_agree hR.disj (d := w.registry) (by rw [hR.reg]; exact hreg) ho (k := .ali o) (Or.inl rfl)).1 o (hin o ho)).1

/-- **C22** an alias in use by another object is refused, every other one is accepted. -/
theorem C22_alias_refused_partial (hT : GoodTable T) (ops : List Op) (hv : ∀ op ∈ ops, op.valid T) (hc : NoClash (runW T ops))
    (o : Nat) (s : String) :
    let w := runW T ops
    setAlias w o s = none ↔ ∃ (o' : Nat) (a : AliasObj), o' ≠ o ∧ w.objs[o']? = some a ∧ some s ∈ a.members := by
  intro w
  have hR : InvR w := run_invR hT ops hv hc
  have hiff : ((w.registry.any fun e => keyEq (envOf w.objs) e.1 (.str s) && e.2 != o) = true) ↔
      ∃ (o' : Nat) (a : AliasObj), o' ≠ o ∧ w.objs[o']? = some a ∧ some s ∈ a.members := by
    rw [hR.reg]
    simp only [List.any_eq_true, List.mem_map, List.mem_range, Bool.and_eq_true, bne_iff_ne]
    constructor
    · rintro ⟨_, ⟨x, hx, rfl⟩, h1, h2⟩
      simp only [keyEq, List.any_eq_true, beq_iff_eq] at h1
      obtain ⟨m, hm, rfl⟩ := h1
      exact ⟨x, _, h2, envOf_get hx, hm⟩
    · rintro ⟨x, a, hne, ha, hm⟩
      have hx : x < w.objs.length := (List.getElem?_eq_some_iff.mp ha).1
      refine ⟨_, ⟨x, hx, rfl⟩, ?_, hne⟩
      simp only [keyEq, List.any_eq_true, beq_iff_eq]
      have := envOf_get hx
      rw [ha] at this
      exact ⟨_, (Option.some.inj this) ▸ hm, rfl⟩
  unfold setAlias
  by_cases hh : (w.registry.any fun e => keyEq (envOf w.objs) e.1 (.str s) && e.2 != o) = true
  · rw [if_pos hh]; exact ⟨fun _ => hiff.mp hh, fun _ => rfl⟩
  · rw [if_neg hh]
    constructor
    · intro h; simp at h
    · intro h; exact absurd (hiff.mpr h) hh

/-- An alias equal to a default name that is only created later: the new object takes over the registry entry of the old one,
whose own name now leads to the new object. -/
theorem C22_hidden : ∃ ops : List Op, (∀ op ∈ ops, op.valid library) ∧
    ((runW library ops).objs.map AliasObj.name = [some "Qubit1", some "Qubit2"] ∧
    getByNameOrAlias (runW library ops) (.str "Qubit1") = some 1 ∧ getByNameOrAlias (runW library ops) (.ali 0) = some 1) :=
  ⟨[.create 17 false, .giveAlias 0 "Qubit2", .create 17 false], by
    intro op hop
    simp only [List.mem_cons, List.not_mem_nil, or_false] at hop
    rcases hop with rfl | rfl | rfl
    · show 17 < library.length; decide
    · trivial
    · show 17 < library.length; decide, by decide⟩

/-- **C21 (partial)** in every reachable state without such a clash, an object is found in the sub-system dictionary, tested,
replaced, deleted and popped alike by its name object, its name and every alias (given before or after it was stored), and is
absent for all of them otherwise.  Without the proviso the claim is false: `C21_clash`. -/
theorem C21_forms_partial (hT : GoodTable T) (ops : List Op) (hv : ∀ op ∈ ops, op.valid T) (hc : NoClash (runW T ops))
    (o : Nat) (a : AliasObj) (ho : (runW T ops).objs[o]? = some a) (k : Key)
    (hk : k = .ali o ∨ ∃ s, some s ∈ a.members ∧ k = .str s) :
    let w := runW T ops
    let σ := envOf w.objs
    ((Key.ali o ∈ w.subSys.map Prod.fst) → aget σ w.subSys k = some o ∧ ahas σ w.subSys k = true ∧
      (∀ u, aset σ w.subSys k u = aset σ w.subSys (.ali o) u ∧ aget σ (aset σ w.subSys k u) (.ali o) = some u) ∧
      adel σ w.subSys k = adel σ w.subSys (.ali o) ∧ apop σ w.subSys k = apop σ w.subSys (.ali o) ∧
      (∀ d', adel σ w.subSys k = some d' → aget σ d' k = none)) ∧
    ((Key.ali o ∉ w.subSys.map Prod.fst) → aget σ w.subSys k = none ∧ ahas σ w.subSys k = false ∧
      adel σ w.subSys k = none ∧ apop σ w.subSys k = none) := by
  intro w σ
  have hR : InvR w := run_invR hT ops hv hc
  have hlt : o < w.objs.length := (List.getElem?_eq_some_iff.mp ho).1
  have hform : Form σ o k := by
    have : σ o = a := by
      have := envOf_get hlt
      rw [show w.objs[o]? = some a from ho] at this; exact (Option.some.inj this).symm
    rcases hk with h | ⟨s, hs, h⟩
    · exact Or.inl h
    · exact Or.inr ⟨s, by rw [this]; exact hs, h⟩
  have hf := forms_agree hR.disj hR.sub hlt hform
  refine ⟨?_, hf.2⟩
  intro hm
  obtain ⟨e, he, hee⟩ := List.mem_map.mp hm
  have hv := hR.subVal e he o hee
  have : e = (.ali o, o) := by rw [← hee, ← hv]
  exact hf.1 o (this ▸ he)

/-- With a clash the second object replaces the first one in the dictionary, and the first one's name finds the second. -/
theorem C21_clash : ∃ ops : List Op, (∀ op ∈ ops, op.valid library) ∧
    (runW library ops).subSys = [(.ali 0, 1)] ∧
    aget (envOf (runW library ops).objs) (runW library ops).subSys (.str "Qubit1") = some 1 :=
  ⟨[.create 17 false, .giveAlias 0 "Qubit2", .create 17 false, .add 0, .add 1], by
    intro op hop
    simp only [List.mem_cons, List.not_mem_nil, or_false] at hop
    rcases hop with rfl | rfl | rfl | rfl | rfl
    · show 17 < library.length; decide
    · trivial
    · show 17 < library.length; decide
    · trivial
    · trivial, by decide⟩

/-- **C23** names of existing objects never change. -/
theorem C23_names_stable (ops more : List Op) (o : Nat) (a : AliasObj) (h : (runW T ops).objs[o]? = some a) :
    ∃ a', (runW T (ops ++ more)).objs[o]? = some a' ∧ a'.name = a.name := by
  induction more using List.reverseRecOn with
  | nil => exact ⟨a, by simpa using h, rfl⟩
  | append_singleton more op ih =>
    obtain ⟨a', h1, h2⟩ := ih
    rw [← List.append_assoc, runW_snoc]
    obtain ⟨a'', g1, g2, _⟩ := step_grows (T := T) _ op o a' h1
    exact ⟨a'', g1, g2.trans h2⟩

/-- A session with aliases given before and after storing, without a clash. -/
example :
    let ops : List Op := [.create 17 false, .create 15 false, .giveAlias 0 "q", .add 0, .addKey (.str "Cavity1"), .giveAlias 1 "c",
      .giveAlias 1 "q", .remove (.str "q")]
    let w := runW library ops
    w.subSys = [(.ali 1, 1)] ∧ aget (envOf w.objs) w.subSys (.str "c") = some 1 ∧ getByNameOrAlias w (.str "q") = some 0 ∧
    w.objs.map AliasObj.alias = [["q"], ["c"]] := by decide

end Verif.Names
