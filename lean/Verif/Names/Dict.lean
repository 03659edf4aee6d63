import Verif.Names.Model
import Mathlib.Data.List.Nodup

/-!
# Laws of the alias dictionary (C25)
-/
namespace Verif.Names

variable {V : Type} (σ : Env)

/-- No two entries have the same hash: true of every Python dictionary whose keys keep their names. -/
def WF (d : ADict V) : Prop := (d.map fun e => hashOf σ e.1).Nodup

theorem keyEq_of_hash {k k' : Key} (h : hashOf σ k = hashOf σ k') : keyEq σ k k' = true := by
  cases k <;> cases k' <;> simp_all [hashOf, keyEq, AliasObj.members]

theorem keyEq_comm (k k' : Key) : keyEq σ k k' = keyEq σ k' k := by
  cases k with
  | str s => cases k' with
    | str t => simp [keyEq, Bool.beq_comm, eq_comm]
    | ali b => rfl
  | ali a => cases k' with
    | str t => rfl
    | ali b =>
      rw [Bool.eq_iff_iff]
      simp only [keyEq, List.any_eq_true, decide_eq_true_eq]
      constructor <;> rintro ⟨x, h1, h2⟩ <;> exact ⟨x, h2, h1⟩

theorem keyEq_self (k : Key) : keyEq σ k k = true := keyEq_of_hash σ rfl

/-- **C25**: two keys count as equal exactly if they share a string, where a string stands for itself and an object for its name and
all its aliases (two objects without a name share the missing name). -/
theorem C25_equal_keys (k k' : Key) : keyEq σ k k' = true ↔
    (∃ s : String, (k = .str s ∨ ∃ a, k = .ali a ∧ ((σ a).name = some s ∨ s ∈ (σ a).alias)) ∧
      (k' = .str s ∨ ∃ b, k' = .ali b ∧ ((σ b).name = some s ∨ s ∈ (σ b).alias))) ∨
    ∃ a b, k = .ali a ∧ k' = .ali b ∧ (σ a).name = none ∧ (σ b).name = none := by
  cases k with
  | str s => cases k' with
    | str t => simpa [keyEq] using eq_comm
    | ali b => simp [keyEq, AliasObj.members]
  | ali a => cases k' with
    | str t => simp [keyEq, AliasObj.members]
    | ali b =>
      simp only [keyEq, AliasObj.members, List.any_eq_true, decide_eq_true_eq, List.mem_cons, List.mem_map]
      constructor
      · rintro ⟨x, h1, h2⟩
        cases x with
        | none =>
          right
          refine ⟨a, b, rfl, rfl, ?_, ?_⟩
          · rcases h2 with h | ⟨_, _, h⟩
            · exact h.symm
            · cases h
          · rcases h1 with h | ⟨_, _, h⟩
            · exact h.symm
            · cases h
        | some s =>
          left
          refine ⟨s, Or.inr ⟨a, rfl, ?_⟩, Or.inr ⟨b, rfl, ?_⟩⟩
          · rcases h2 with h | ⟨t, ht, h⟩
            · exact Or.inl h.symm
            · cases h; exact Or.inr ht
          · rcases h1 with h | ⟨t, ht, h⟩
            · exact Or.inl h.symm
            · cases h; exact Or.inr ht
      · rintro (⟨s, h1, h2⟩ | ⟨a', b', h1, h2, h3, h4⟩)
        · refine ⟨some s, ?_, ?_⟩
          · rcases h2 with h | ⟨_, h, h'⟩
            · cases h
            · cases h
              rcases h' with h' | h'
              · exact Or.inl h'.symm
              · exact Or.inr ⟨s, h', rfl⟩
          · rcases h1 with h | ⟨_, h, h'⟩
            · cases h
            · cases h
              rcases h' with h' | h'
              · exact Or.inl h'.symm
              · exact Or.inr ⟨s, h', rfl⟩
        · cases h1; cases h2
          exact ⟨none, Or.inl h4.symm, Or.inl h3.symm⟩

/-- two objects with a common alias -/
example : keyEq (fun n => if n = 0 then ⟨some "a", ["x"]⟩ else ⟨some "b", ["y", "x"]⟩) (.ali 0) (.ali 1) = true := by decide

/-- The entry a key refers to: with the same hash, or else the first equal one. -/
theorem keySearch_spec (d : ADict V) (k : Key) :
    (∃ l e r, d = l ++ e :: r ∧ keyEq σ k e.1 = true ∧ hashOf σ (keySearch σ d k) = hashOf σ e.1) ∨
    ((∀ e ∈ d, keyEq σ k e.1 = false) ∧ keySearch σ d k = k) := by
  by_cases h : rawHas σ d k = true
  · left
    have h2 := h
    simp only [rawHas, List.any_eq_true, beq_iff_eq] at h2
    obtain ⟨e, he, hh⟩ := h2
    obtain ⟨l, r, hd⟩ := List.append_of_mem he
    exact ⟨l, e, r, hd, keyEq_of_hash σ hh.symm, by simp [keySearch, h, hh]⟩
  · simp only [keySearch, h]
    cases hf : d.find? fun e => keyEq σ k e.1 with
    | some e =>
      left
      obtain ⟨h1, l, r, hd, _⟩ := List.find?_eq_some_iff_append.mp hf
      exact ⟨l, e, r, hd, h1, rfl⟩
    | none =>
      right
      refine ⟨fun e he => ?_, rfl⟩
      have := List.find?_eq_none.mp hf e he
      simpa using this

variable {σ}

theorem wf_split {l r : ADict V} {e : Key × V} (h : WF σ (l ++ e :: r)) :
    (∀ x ∈ l, hashOf σ x.1 ≠ hashOf σ e.1) ∧ (∀ x ∈ r, hashOf σ x.1 ≠ hashOf σ e.1) := by
  unfold WF at h
  simp only [List.map_append, List.map_cons, List.nodup_append, List.nodup_cons, List.mem_map, List.mem_cons] at h
  obtain ⟨h1, ⟨h2, h3⟩, h4⟩ := h
  exact ⟨fun x hx => h4 _ ⟨x, hx, rfl⟩ _ (Or.inl rfl), fun x hx hh => h2 ⟨x, hx, hh⟩⟩

theorem rawGet_split {l r : ADict V} {e : Key × V} {k : Key} (hl : ∀ x ∈ l, hashOf σ x.1 ≠ hashOf σ e.1)
    (hk : hashOf σ k = hashOf σ e.1) : rawGet σ (l ++ e :: r) k = some e.2 := by
  induction l with
  | nil => simp [rawGet, hk]
  | cons x l ih =>
    have hx := hl x (by simp)
    have := ih fun y hy => hl y (by simp [hy])
    simp only [rawGet, List.cons_append, List.find?_cons] at this ⊢
    rw [show (hashOf σ x.1 == hashOf σ k) = false by simpa [hk] using hx]
    exact this

theorem rawSet_split {l r : ADict V} {e : Key × V} {k : Key} (hl : ∀ x ∈ l, hashOf σ x.1 ≠ hashOf σ e.1)
    (hk : hashOf σ k = hashOf σ e.1) (v : V) : rawSet σ (l ++ e :: r) k v = l ++ (e.1, v) :: r := by
  induction l with
  | nil => simp [rawSet, hk]
  | cons x l ih =>
    have hx := hl x (by simp)
    have := ih fun y hy => hl y (by simp [hy])
    rw [List.cons_append, rawSet, if_neg (by simpa [hk] using hx), this]
    rfl

theorem rawDel_split {l r : ADict V} {e : Key × V} {k : Key} (hl : ∀ x ∈ l, hashOf σ x.1 ≠ hashOf σ e.1)
    (hk : hashOf σ k = hashOf σ e.1) : rawDel σ (l ++ e :: r) k = some (l ++ r) := by
  induction l with
  | nil => simp [rawDel, hk]
  | cons x l ih =>
    have hx := hl x (by simp)
    have := ih fun y hy => hl y (by simp [hy])
    rw [List.cons_append, rawDel, if_neg (by simpa [hk] using hx), this]
    rfl

theorem raw_missing {d : ADict V} {k : Key} (h : ∀ e ∈ d, hashOf σ e.1 ≠ hashOf σ k) :
    rawGet σ d k = none ∧ rawDel σ d k = none ∧ (∀ v, rawSet σ d k v = d ++ [(k, v)]) ∧ rawHas σ d k = false := by
  induction d with
  | nil => simp [rawGet, rawDel, rawSet, rawHas]
  | cons x d ih =>
    have hx := h x (by simp)
    obtain ⟨h1, h2, h3, h4⟩ := ih fun y hy => h y (by simp [hy])
    have hb : (hashOf σ x.1 == hashOf σ k) = false := by simpa using hx
    refine ⟨?_, ?_, ?_, ?_⟩
    · simp only [rawGet, List.find?_cons, hb] at h1 ⊢; exact h1
    · rw [rawDel, if_neg (by simp [hb]), h2]; rfl
    · intro v; rw [rawSet, if_neg (by simp [hb]), h3]; rfl
    · simp only [rawHas, List.any_cons, hb] at h4 ⊢; simpa using h4

theorem rawHas_split {l r : ADict V} {e : Key × V} {k : Key} (hk : hashOf σ k = hashOf σ e.1) :
    rawHas σ (l ++ e :: r) k = true := by
  simp [rawHas, hk]

/-- What every operation does with a key: either it refers to an entry equal to it, or no entry is equal to it. -/
theorem ops_spec (d : ADict V) (hd : WF σ d) (k : Key) :
    (∃ l e r, d = l ++ e :: r ∧ keyEq σ k e.1 = true ∧ aget σ d k = some e.2 ∧ (∀ v, aset σ d k v = l ++ (e.1, v) :: r) ∧
      adel σ d k = some (l ++ r) ∧ ahas σ d k = true ∧ apop σ d k = some (e.2, l ++ r)) ∨
    ((∀ e ∈ d, keyEq σ k e.1 = false) ∧ aget σ d k = none ∧ (∀ v, aset σ d k v = d ++ [(k, v)]) ∧ adel σ d k = none ∧
      ahas σ d k = false ∧ apop σ d k = none) := by
  rcases keySearch_spec σ d k with ⟨l, e, r, h1, h2, h3⟩ | ⟨h1, h2⟩
  · left
    have hs : ∀ x ∈ l, hashOf σ x.1 ≠ hashOf σ e.1 := by rw [h1] at hd; exact (wf_split hd).1
    refine ⟨l, e, r, h1, h2, ?_, ?_, ?_, ?_, ?_⟩
    · rw [aget]; generalize keySearch σ d k = k' at h3 ⊢; rw [h1, rawGet_split hs h3]
    · intro v; rw [aset]; generalize keySearch σ d k = k' at h3 ⊢; rw [h1, rawSet_split hs h3]
    · rw [adel]; generalize keySearch σ d k = k' at h3 ⊢; rw [h1, rawDel_split hs h3]
    · rw [ahas]; generalize keySearch σ d k = k' at h3 ⊢; rw [h1, rawHas_split h3]
    · simp only [apop]; generalize keySearch σ d k = k' at h3 ⊢; rw [h1, rawGet_split hs h3, rawDel_split hs h3]
  · right
    have hm : ∀ e ∈ d, hashOf σ e.1 ≠ hashOf σ k := by
      intro e he hh
      have := keyEq_of_hash σ hh.symm
      rw [h1 e he] at this; exact absurd this (by simp)
    obtain ⟨g1, g2, g3, g4⟩ := raw_missing hm
    exact ⟨h1, by rw [aget, h2, g1], fun v => by rw [aset, h2, g3], by rw [adel, h2, g2], by rw [ahas, h2, g4],
      by simp only [apop, h2, g1]⟩

theorem C25_wf_set (d : ADict V) (hd : WF σ d) (k : Key) (v : V) : WF σ (aset σ d k v) := by
  rcases ops_spec d hd k with ⟨l, e, r, h1, _, _, h3, _⟩ | ⟨h1, _, h3, _⟩
  · rw [h3]; rw [h1] at hd; simpa [WF] using hd
  · rw [h3]
    unfold WF at hd ⊢
    simp only [List.map_append, List.map_cons, List.map_nil, List.nodup_append, hd, List.nodup_singleton, true_and,
      List.mem_map, List.mem_singleton]
    rintro _ ⟨e, he, rfl⟩ _ rfl hh
    have := keyEq_of_hash σ hh.symm
    rw [h1 e he] at this; exact absurd this (by simp)

theorem C25_wf_del (d d' : ADict V) (hd : WF σ d) (k : Key) (h : adel σ d k = some d') : WF σ d' := by
  rcases ops_spec d hd k with ⟨l, e, r, h1, _, _, _, h4, _⟩ | ⟨_, _, _, h4, _⟩
  · rw [h4] at h; rw [← Option.some.inj h]
    rw [h1] at hd
    unfold WF at hd ⊢
    exact hd.sublist (by simp)
  · rw [h4] at h; exact absurd h (by simp)

/-- **C25** assigning: exactly one entry, equal to the key, gets the value in place, or a new entry is appended when no stored
key is equal. Hence insertion order is kept. -/
theorem C25_set (d : ADict V) (hd : WF σ d) (k : Key) (v : V) :
    (∃ l e r, d = l ++ e :: r ∧ keyEq σ k e.1 = true ∧ aset σ d k v = l ++ (e.1, v) :: r) ∨
    ((∀ e ∈ d, keyEq σ k e.1 = false) ∧ aset σ d k v = d ++ [(k, v)]) := by
  rcases ops_spec d hd k with ⟨l, e, r, h1, h2, _, h3, _⟩ | ⟨h1, _, h3, _⟩
  · exact Or.inl ⟨l, e, r, h1, h2, h3 v⟩
  · exact Or.inr ⟨h1, h3 v⟩

theorem aget_congr_keys (d : ADict V) (k : Key) {l r : ADict V} {e : Key × V} (hde : d = l ++ e :: r) (v : V) (hd : WF σ d)
    (h3 : hashOf σ (keySearch σ d k) = hashOf σ e.1) : aget σ (l ++ (e.1, v) :: r) k = some v := by
  have hks : keySearch σ (l ++ (e.1, v) :: r) k = keySearch σ d k := by
    subst hde
    have h1 : rawHas σ (l ++ (e.1, v) :: r) k = rawHas σ (l ++ e :: r) k := by simp [rawHas]
    simp only [keySearch, h1]
    split
    · rfl
    · simp only [List.find?_append, List.find?_cons]
      cases (List.find? (fun e => keyEq σ k e.1) l) with
      | some x => rfl
      | none => by_cases hq : keyEq σ k e.1 <;> simp [hq]
  rw [aget, hks]
  subst hde
  exact rawGet_split (e := (e.1, v)) (wf_split hd).1 h3

/-- **C25** reading after assigning returns the value. -/
theorem C25_get_set (d : ADict V) (hd : WF σ d) (k : Key) (v : V) : aget σ (aset σ d k v) k = some v := by
  rcases keySearch_spec σ d k with ⟨l, e, r, h1, h2, h3⟩ | ⟨h1, h2⟩
  · have hs : ∀ x ∈ l, hashOf σ x.1 ≠ hashOf σ e.1 := by rw [h1] at hd; exact (wf_split hd).1
    have : aset σ d k v = l ++ (e.1, v) :: r := by
      rw [aset]; generalize keySearch σ d k = k' at h3 ⊢; rw [h1, rawSet_split hs h3]
    rw [this]
    exact aget_congr_keys d k h1 v hd h3
  · have hm : ∀ e ∈ d, hashOf σ e.1 ≠ hashOf σ k := by
      intro e he hh
      have := keyEq_of_hash σ hh.symm
      rw [h1 e he] at this; exact absurd this (by simp)
    rw [aset, h2, (raw_missing hm).2.2.1, aget]
    have : keySearch σ (d ++ [(k, v)]) k = k := by simp [keySearch, rawHas]
    rw [this]
    exact rawGet_split (e := (k, v)) hm rfl

/-- The lookup scans: first the entry with the same hash, else the first equal entry. -/
theorem aget_eq (d : ADict V) (hd : WF σ d) (k : Key) : aget σ d k =
    ((d.find? fun e => hashOf σ e.1 == hashOf σ k).or (d.find? fun e => keyEq σ k e.1)).map Prod.snd := by
  by_cases h : rawHas σ d k = true
  · simp only [aget, keySearch, h, if_true, rawGet]
    cases hf : d.find? fun e => hashOf σ e.1 == hashOf σ k with
    | some e => rfl
    | none =>
      simp only [rawHas, List.any_eq_true] at h
      obtain ⟨e, he, hh⟩ := h
      exact absurd hh (by simpa using List.find?_eq_none.mp hf e he)
  · have hn : d.find? (fun e => hashOf σ e.1 == hashOf σ k) = none := by
      rw [List.find?_eq_none]
      intro e he hh
      exact h (List.any_eq_true.mpr ⟨e, he, hh⟩)
    simp only [aget, keySearch, h, hn, Option.none_or]
    cases hf : d.find? fun e => keyEq σ k e.1 with
    | none => simp only [rawGet]; simpa using hn
    | some e =>
      obtain ⟨h1, l, r, hde, _⟩ := List.find?_eq_some_iff_append.mp hf
      simp only [Bool.false_eq_true, if_false, Option.map_some]
      subst hde
      exact rawGet_split (wf_split hd).1 rfl

/-- **C25** other keys are unaffected: a key which is not equal to the stored key that was written reads the same as before. -/
theorem C25_set_other (d : ADict V) (hd : WF σ d) (k : Key) (v : V) :
    ∃ e, e ∈ (aset σ d k v).map Prod.fst ∧ keyEq σ k e = true ∧
      ∀ k', keyEq σ k' e = false → aget σ (aset σ d k v) k' = aget σ d k' := by
  have hw := C25_wf_set d hd k v
  have hash : ∀ {a b : Key}, keyEq σ a b = false → (hashOf σ b == hashOf σ a) = false := by
    intro a b h
    by_contra hne
    rw [Bool.not_eq_false, beq_iff_eq] at hne
    have : hashOf σ a = hashOf σ b := hne.symm
    rw [keyEq_of_hash σ this] at h; exact absurd h (by simp)
  rcases C25_set d hd k v with ⟨l, e, r, h1, h2, h3⟩ | ⟨h1, h2⟩
  · refine ⟨e.1, by rw [h3]; simp, h2, fun k' hk' => ?_⟩
    rw [aget_eq _ hw, aget_eq d hd, h3, h1]
    simp only [List.find?_append, List.find?_cons, hash hk', hk']
  · refine ⟨k, by rw [h2]; simp, keyEq_self σ k, fun k' hk' => ?_⟩
    rw [aget_eq _ hw, aget_eq d hd, h2]
    simp only [List.find?_append, List.find?_cons, hash hk', hk', List.find?_nil, Option.or_none]

/-- **C25** reading finds exactly the entries equal to the key. -/
theorem C25_get (d : ADict V) (hd : WF σ d) (k : Key) :
    (∀ v, aget σ d k = some v → ∃ e, (e, v) ∈ d ∧ keyEq σ k e = true) ∧
    (aget σ d k = none ↔ ∀ e ∈ d, keyEq σ k e.1 = false) ∧ (ahas σ d k = true ↔ ∃ e ∈ d, keyEq σ k e.1 = true) := by
  rcases ops_spec d hd k with ⟨l, e, r, h1, h2, h3, _, _, h4, _⟩ | ⟨h1, h3, _, _, h4, _⟩
  · have hmem : e ∈ d := by rw [h1]; simp
    refine ⟨?_, ?_, ?_⟩
    · intro v hv; rw [h3] at hv; rw [← Option.some.inj hv]; exact ⟨e.1, hmem, h2⟩
    · rw [h3]
      constructor
      · intro h; simp at h
      · intro h; rw [h e hmem] at h2; simp at h2
    · rw [h4]; exact ⟨fun _ => ⟨e, hmem, h2⟩, fun _ => rfl⟩
  · refine ⟨?_, ?_, ?_⟩
    · intro v hv; rw [h3] at hv; simp at hv
    · rw [h3]; exact ⟨fun _ => h1, fun _ => rfl⟩
    · rw [h4]
      constructor
      · intro h; simp at h
      · rintro ⟨e, he, hh⟩; rw [h1 e he] at hh; simp at hh

/-- **C25** deleting removes one entry equal to the key and keeps the order of the others, or raises if there is none. -/
theorem C25_del (d : ADict V) (hd : WF σ d) (k : Key) :
    (∃ l e r, d = l ++ e :: r ∧ keyEq σ k e.1 = true ∧ aget σ d k = some e.2 ∧ adel σ d k = some (l ++ r)) ∨
    ((∀ e ∈ d, keyEq σ k e.1 = false) ∧ adel σ d k = none) := by
  rcases ops_spec d hd k with ⟨l, e, r, h1, h2, h3, _, h4, _⟩ | ⟨h1, _, _, h4, _⟩
  · exact Or.inl ⟨l, e, r, h1, h2, h3, h4⟩
  · exact Or.inr ⟨h1, h4⟩

/-- **C25 (partial)** after deleting, the key is gone, provided at most one stored key is equal to it.
Without the proviso the claim is false: `C25_del_ambiguous`. -/
theorem C25_del_removes_partial (d d' : ADict V) (hd : WF σ d) (k : Key)
    (huniq : (d.filter fun e => keyEq σ k e.1).length ≤ 1) (h : adel σ d k = some d') :
    ahas σ d' k = false ∧ aget σ d' k = none := by
  have hw := C25_wf_del d d' hd k h
  rcases C25_del d hd k with ⟨l, e, r, h1, h2, _, h4⟩ | ⟨_, h4⟩
  · rw [h4] at h
    have hno : ∀ x ∈ d', keyEq σ k x.1 = false := by
      rw [← Option.some.inj h]
      intro x hx
      rw [h1, List.filter_append, List.filter_cons_of_pos (by simpa using h2), List.length_append, List.length_cons] at huniq
      by_contra hne
      have hp : keyEq σ k x.1 = true := by simpa using hne
      rcases List.mem_append.mp hx with hx | hx
      · have : 0 < (l.filter fun e => keyEq σ k e.1).length :=
          List.length_pos_of_mem (List.mem_filter.mpr ⟨hx, hp⟩)
        omega
      · have : 0 < (r.filter fun e => keyEq σ k e.1).length :=
          List.length_pos_of_mem (List.mem_filter.mpr ⟨hx, hp⟩)
        omega
    have hg := C25_get d' hw k
    refine ⟨?_, hg.2.1.mpr hno⟩
    by_contra hne
    have : ahas σ d' k = true := by simpa using hne
    obtain ⟨x, hx, hh⟩ := hg.2.2.mp this
    rw [hno x hx] at hh; simp at hh
  · rw [h4] at h; simp at h

/-- `pop` is reading and deleting at once. -/
theorem C25_pop (d : ADict V) (hd : WF σ d) (k : Key) :
    apop σ d k = (aget σ d k).bind fun v => (adel σ d k).map fun d' => (v, d') := by
  rcases ops_spec d hd k with ⟨l, e, r, _, _, h3, _, h4, _, h5⟩ | ⟨_, h3, _, h4, _, h5⟩
  · rw [h3, h4, h5]; rfl
  · rw [h3, h5]; rfl

/-- **C25** `setdefault` keeps an existing value and otherwise assigns; it always returns the value then stored. -/
theorem C25_setdefault (d : ADict V) (hd : WF σ d) (k : Key) (v : V) :
    (∀ u, aget σ d k = some u → asetdefault σ d k v = (some u, d)) ∧
    (aget σ d k = none → asetdefault σ d k v = (some v, aset σ d k v)) := by
  have hg := C25_get d hd k
  constructor
  · intro u hu
    obtain ⟨e, he, hk⟩ := hg.1 u hu
    have : ahas σ d k = true := hg.2.2.mpr ⟨(e, u), he, hk⟩
    simp [asetdefault, this, hu]
  · intro hn
    have : ahas σ d k = false := by
      by_contra hne
      obtain ⟨e, he, hk⟩ := hg.2.2.mp (by simpa using hne)
      rw [hg.2.1.mp hn e he] at hk; simp at hk
    simp [asetdefault, this, C25_get_set d hd k v]

theorem C25_wf_update (d : ADict V) (hd : WF σ d) (items : List (Key × V)) : WF σ (aupdate σ d items) := by
  induction items generalizing d with
  | nil => exact hd
  | cons p rest ih => exact ih _ (C25_wf_set d hd p.1 p.2)

/-- **C25** `update` equals repeated assignment: the last assigned value is read back, and the keys present before keep their
order and are followed by the new ones. -/
theorem C25_update (d : ADict V) (hd : WF σ d) (items : List (Key × V)) :
    (∀ k v, aget σ (aupdate σ d (items ++ [(k, v)])) k = some v) ∧
    (∃ new, (aupdate σ d items).map Prod.fst = d.map Prod.fst ++ new ∧ new.Sublist (items.map Prod.fst)) ∧
    (∀ k, (∀ p ∈ items, ∀ e ∈ (aupdate σ d items).map Prod.fst, keyEq σ p.1 e = true → keyEq σ k e = false) →
      aget σ (aupdate σ d items) k = aget σ d k) := by
  refine ⟨?_, ?_, ?_⟩
  · intro k v
    rw [aupdate, List.foldl_append]
    exact C25_get_set _ (C25_wf_update d hd items) k v
  · induction items generalizing d with
    | nil => exact ⟨[], by simp [aupdate], by simp⟩
    | cons p rest ih =>
      obtain ⟨new, h1, h2⟩ := ih _ (C25_wf_set d hd p.1 p.2)
      rcases C25_set d hd p.1 p.2 with ⟨l, e, r, g1, _, g3⟩ | ⟨_, g2⟩
      · refine ⟨new, ?_, h2.trans (by simp)⟩
        rw [aupdate, List.foldl_cons]
        change (aupdate σ (aset σ d p.1 p.2) rest).map Prod.fst = _
        rw [h1, g3, g1]; simp
      · refine ⟨p.1 :: new, ?_, by simpa using h2⟩
        rw [aupdate, List.foldl_cons]
        change (aupdate σ (aset σ d p.1 p.2) rest).map Prod.fst = _
        rw [h1, g2]; simp
  · have hpre : ∀ (items : List (Key × V)) (d : ADict V), WF σ d → ∀ e ∈ d.map Prod.fst,
        e ∈ (aupdate σ d items).map Prod.fst := by
      intro items
      induction items with
      | nil => intro d _ e he; exact he
      | cons p rest ih =>
        intro d hd e he
        refine ih _ (C25_wf_set d hd p.1 p.2) e ?_
        rcases C25_set d hd p.1 p.2 with ⟨l, x, r, g1, _, g3⟩ | ⟨_, g2⟩
        · rw [g3]; rw [g1] at he; simpa using he
        · rw [g2]; simp only [List.map_append, List.mem_append]; exact Or.inl he
    induction items generalizing d with
    | nil => intro k _; rfl
    | cons p rest ih =>
      intro k hk
      have hw := C25_wf_set d hd p.1 p.2
      change aget σ (aupdate σ (aset σ d p.1 p.2) rest) k = _
      rw [ih _ hw k fun q hq => hk q (by simp [hq])]
      obtain ⟨e, he, hpe, hoth⟩ := C25_set_other d hd p.1 p.2
      exact hoth k (hk p (by simp) e (hpre rest _ hw e he) hpe)

/-- An object with two aliases which are both stored as plain strings: after deleting it, it is still a member. -/
theorem C25_del_ambiguous : ∃ (σ : Env) (d d' : ADict Nat) (k : Key), WF σ d ∧ adel σ d k = some d' ∧
    ahas σ d' k = true :=
  ⟨fun _ => ⟨some "q", ["a", "b"]⟩, [(.str "a", 1), (.str "b", 2)], [(.str "b", 2)], .ali 0,
    by simp [WF, hashOf], by decide, by decide⟩

/-- Three objects, one of them with an alias, used by name, alias and object. -/
example :
    let σ : Env := fun o => if o = 0 then ⟨some "Qubit1", ["left"]⟩ else if o = 1 then ⟨some "Qubit2", []⟩ else ⟨some "Cavity1", ["c"]⟩
    let d : ADict Nat := aupdate σ [] [(.ali 0, 10), (.ali 1, 11), (.str "left", 12)]
    d = [(.ali 0, 12), (.ali 1, 11)] ∧ aget σ d (.str "Qubit1") = some 12 ∧ aget σ d (.str "c") = none ∧
    adel σ d (.str "left") = some [(.ali 1, 11)] := by decide

end Verif.Names
