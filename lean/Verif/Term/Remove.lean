import Mathlib.Tactic.Common
import Mathlib.Data.List.Basic
import Mathlib.Logic.Relation

/-!
# C93: removing a term through any system of a composite

`removeTerm` searches the term in the system, its sub-systems and then upwards through `superSys` (`classes/QSystem.py:615-649`), with a list of
systems already searched.  Simplifications: systems and terms are numbers and the links are arbitrary (also shared or cyclic); a dictionary of terms
is the list of its terms; deleting matrices and marking is recorded as the list of systems for which it is done (their effect is C13, C16 and C67).
-/
namespace Verif.Term.Remove

/-- The links: `subSys` and `superSys` of each system. -/
structure Links where
  sub : Nat → List Nat
  sup : Nat → Option Nat

/-- The state of the search: the terms of every system, the systems in `_exclude`, whether the term is in `_exclude`, and the systems for which
matrices were deleted and the mark set. -/
structure St where
  terms : Nat → List Nat
  excl : List Nat
  found : Bool
  touched : List Nat

/-- `self.terms.pop(termObj.name)`. -/
def popTerm (terms : Nat → List Nat) (s t : Nat) : Nat → List Nat := fun x => if x = s then (terms x).erase t else terms x

/-- The loop over the sub-systems, left when the term was found (`QSystem.py:625-628`). -/
def loop (rec : Nat → St → Option St) : List Nat → St → Option St
  | [], st => some st
  | q :: qs, st => match rec q st with
    | none => none
    | some st => if st.found then some st else loop rec qs st

/-- `_removeTermExc` (`QSystem.py:615-636`); `none`: the recursion limit is reached. -/
def go (G : Links) (t : Nat) : Nat → Nat → St → Option St
  | 0, _, _ => none
  | fuel + 1, s, st =>
    (if t ∈ st.terms s then some { st with terms := popTerm st.terms s t, excl := s :: st.excl, found := true }
      else if s ∈ st.excl then some st
      else match loop (go G t fuel) (G.sub s) { st with excl := s :: st.excl } with
        | none => none
        | some st => if st.found then some st else match G.sup s with
          | none => some st
          | some p => go G t fuel p st).map fun st => { st with touched := s :: st.touched }

/-- `removeTerm` of a term object on system `s` (`QSystem.py:638-649`). -/
def removeTerm (G : Links) (fuel : Nat) (terms : Nat → List Nat) (s t : Nat) : Option St := go G t fuel s ⟨terms, [], false, []⟩

/-! ### Specification -/

/-- One link between systems, downwards or upwards. -/
def Link (G : Links) (a b : Nat) : Prop := b ∈ G.sub a ∨ G.sup a = some b

/-- The systems that can be reached through links. -/
def Reach (G : Links) (a b : Nat) : Prop := Relation.ReflTransGen (Link G) a b

/-! ### Lemmas -/

/-- What a call on one system does. -/
structure Good (G : Links) (t : Nat) (R : Nat → Prop) (st st' : St) : Prop where
  excl : ∀ x ∈ st.excl, x ∈ st'.excl
  reach : ∀ x ∈ st'.excl, x ∈ st.excl ∨ R x
  touched : ∀ x ∈ st'.touched, x ∈ st.touched ∨ R x
  kept : ∀ x ∈ st.touched, x ∈ st'.touched
  hit : st'.found = true → ∃ q, R q ∧ t ∈ st.terms q ∧ st'.terms = popTerm st.terms q t ∧ q ∈ st'.touched
  miss : st'.found = false → st'.terms = st.terms ∧
    ∀ x ∈ st'.excl, x ∉ st.excl → t ∉ st.terms x ∧ x ∈ st'.touched ∧ ∀ y, Link G x y → y ∈ st'.excl

theorem Good.refl (G : Links) (t : Nat) (R : Nat → Prop) (st : St) (hf : st.found = false) : Good G t R st st :=
  ⟨fun _ h => h, fun _ h => Or.inl h, fun _ h => Or.inl h, fun _ h => h, fun h => (by rw [hf] at h; cases h), fun _ => ⟨rfl, fun _ h h' => absurd h h'⟩⟩

theorem Good.mono {G : Links} {t : Nat} {R R' : Nat → Prop} {st st' : St} (h : Good G t R st st') (hR : ∀ x, R x → R' x) : Good G t R' st st' :=
  ⟨h.excl, fun x hx => (h.reach x hx).imp_right (hR x), fun x hx => (h.touched x hx).imp_right (hR x), h.kept,
    fun hf => by obtain ⟨q, h1, h2⟩ := h.hit hf; exact ⟨q, hR q h1, h2⟩, h.miss⟩

theorem Good.trans {G : Links} {t : Nat} {R : Nat → Prop} {a b c : St} (h : Good G t R a b) (hb : b.found = false) (h' : Good G t R b c) :
    Good G t R a c := by
  obtain ⟨hbt, hbx⟩ := h.miss hb
  refine ⟨fun x hx => h'.excl x (h.excl x hx), fun x hx => ?_, fun x hx => ?_, fun x hx => h'.kept x (h.kept x hx), fun hf => ?_, fun hf => ?_⟩
  · rcases h'.reach x hx with hx | hx
    · exact h.reach x hx
    · exact Or.inr hx
  · rcases h'.touched x hx with hx | hx
    · exact h.touched x hx
    · exact Or.inr hx
  · obtain ⟨q, h1, h2, h3, h4⟩ := h'.hit hf
    exact ⟨q, h1, hbt ▸ h2, by rw [h3, hbt], h4⟩
  · obtain ⟨h1, h2⟩ := h'.miss hf
    refine ⟨h1.trans hbt, fun x hx hn => ?_⟩
    by_cases hxb : x ∈ b.excl
    · obtain ⟨h3, h4, h5⟩ := hbx x hxb hn
      exact ⟨h3, h'.kept x h4, fun y hy => h'.excl y (h5 y hy)⟩
    · rw [← hbt]
      exact h2 x hx hxb

/-- The number of systems that are not excluded yet. -/
def left (univ : List Nat) (st : St) : Nat := (univ.filter fun x => x ∉ st.excl).length

theorem left_mono (univ : List Nat) (a b : St) (h : ∀ x ∈ a.excl, x ∈ b.excl) : left univ b ≤ left univ a := by
  unfold left
  induction univ with
  | nil => simp
  | cons u us ih =>
    by_cases hb : u ∈ b.excl
    · rw [List.filter_cons_of_neg (by simpa using hb)]
      refine Nat.le_trans ih ?_
      by_cases ha : u ∈ a.excl
      · rw [List.filter_cons_of_neg (by simpa using ha)]; exact Nat.le_refl _
      · rw [List.filter_cons_of_pos (by simpa using ha)]; simp
    · have ha : u ∉ a.excl := fun ha => hb (h u ha)
      rw [List.filter_cons_of_pos (by simpa using hb), List.filter_cons_of_pos (by simpa using ha)]
      simpa using ih

theorem left_cons (univ : List Nat) (st : St) (s : Nat) (hs : s ∈ univ) (hn : s ∉ st.excl) : left univ { st with excl := s :: st.excl } < left univ st := by
  unfold left
  induction univ with
  | nil => cases hs
  | cons u us ih =>
    have hle : left us { st with excl := s :: st.excl } ≤ left us st := left_mono us _ _ fun x hx => List.mem_cons_of_mem _ hx
    unfold left at hle
    dsimp only at hle
    by_cases hu : u = s
    · subst hu
      rw [List.filter_cons_of_neg (by simp), List.filter_cons_of_pos (by simpa using hn)]
      exact Nat.lt_succ_of_le hle
    · have hs' : s ∈ us := by rcases List.mem_cons.mp hs with h | h; exact absurd h.symm hu; exact h
      have := ih hs'
      by_cases ha : u ∈ st.excl
      · rw [List.filter_cons_of_neg (by simp [ha]), List.filter_cons_of_neg (by simpa using ha)]
        exact this
      · rw [List.filter_cons_of_pos (by simp [ha, hu]), List.filter_cons_of_pos (by simpa using ha)]
        simpa using this

theorem loop_good (G : Links) (t : Nat) (univ : List Nat) (rec : Nat → St → Option St) (R : Nat → Prop) (n : Nat)
    (hrec : ∀ q st, q ∈ univ → st.found = false → left univ st ≤ n → ∃ st', rec q st = some st' ∧ Good G t (Reach G q) st st' ∧
      (st'.found = false → q ∈ st'.excl)) :
    ∀ (qs : List Nat) (st : St), (∀ q ∈ qs, q ∈ univ ∧ ∀ x, Reach G q x → R x) → st.found = false → left univ st ≤ n →
      ∃ st', loop rec qs st = some st' ∧ Good G t R st st' ∧ (st'.found = false → ∀ q ∈ qs, q ∈ st'.excl)
  | [], st, _, hf, _ => ⟨st, rfl, Good.refl G t R st hf, fun _ q hq => by cases hq⟩
  | q :: qs, st, hq, hf, hl => by
    obtain ⟨st1, h1, g1, e1⟩ := hrec q st (hq q (by simp)).1 hf hl
    have g1 := g1.mono (hq q (by simp)).2
    rw [loop, h1]
    dsimp only
    by_cases hfd : st1.found = true
    · rw [if_pos hfd]
      exact ⟨st1, rfl, g1, fun h => by rw [hfd] at h; cases h⟩
    · rw [if_neg hfd]
      have hfd : st1.found = false := by simpa using hfd
      obtain ⟨st2, h2, g2, e2⟩ := loop_good G t univ rec R n hrec qs st1 (fun x hx => hq x (by simp [hx])) hfd (Nat.le_trans (left_mono univ _ _ g1.excl) hl)
      refine ⟨st2, h2, g1.trans hfd g2, fun hf2 x hx => ?_⟩
      rcases List.mem_cons.mp hx with rfl | hx
      · exact g2.excl _ (e1 hfd)
      · exact e2 hf2 x hx

theorem go_good (G : Links) (t : Nat) (univ : List Nat) (hu : ∀ x ∈ univ, ∀ y, Link G x y → y ∈ univ) :
    ∀ (fuel s : Nat) (st : St), s ∈ univ → st.found = false → left univ st < fuel →
      ∃ st', go G t fuel s st = some st' ∧ Good G t (Reach G s) st st' ∧ (st'.found = false → s ∈ st'.excl)
  | 0, _, _, _, _, hl => absurd hl (by omega)
  | fuel + 1, s, st, hs, hf, hl => by
    rw [go]
    by_cases ht : t ∈ st.terms s
    · rw [if_pos ht]
      refine ⟨_, rfl, ⟨fun x hx => List.mem_cons_of_mem _ hx, fun x hx => ?_, fun x hx => ?_, fun x hx => List.mem_cons_of_mem _ hx,
        fun _ => ⟨s, Relation.ReflTransGen.refl, ht, rfl, List.mem_cons_self⟩, fun h => (by cases h)⟩, fun h => (by cases h)⟩
      · rcases List.mem_cons.mp hx with rfl | hx
        · exact Or.inr Relation.ReflTransGen.refl
        · exact Or.inl hx
      · rcases List.mem_cons.mp hx with rfl | hx
        · exact Or.inr Relation.ReflTransGen.refl
        · exact Or.inl hx
    · rw [if_neg ht]
      by_cases hx : s ∈ st.excl
      · rw [if_pos hx]
        refine ⟨_, rfl, ⟨fun x hx => hx, fun x hx => Or.inl hx, fun x hx => ?_, fun x hx => List.mem_cons_of_mem _ hx,
          fun h => (by dsimp only at h; rw [hf] at h; cases h), fun _ => ⟨rfl, fun _ h h' => absurd h h'⟩⟩, fun _ => hx⟩
        rcases List.mem_cons.mp hx with rfl | hx
        · exact Or.inr Relation.ReflTransGen.refl
        · exact Or.inl hx
      · rw [if_neg hx]
        have hlt := left_cons univ st s hs hx
        obtain ⟨st1, h1, g1, e1⟩ := loop_good G t univ (go G t fuel) (Reach G s) (fuel - 1)
          (fun q st hq hf hl => go_good G t univ hu fuel q st hq hf (by omega)) (G.sub s) { st with excl := s :: st.excl }
          (fun q hq => ⟨hu s hs q (Or.inl hq), fun x hx => Relation.ReflTransGen.head (Or.inl hq) hx⟩) hf (by omega)
        rw [h1]
        dsimp only
        -- what remains: from the state after the loop to the end
        have fin : ∀ st2 : St, Good G t (Reach G s) { st with excl := s :: st.excl } st2 →
            (st2.found = false → ∀ y, Link G s y → y ∈ st2.excl) →
            Good G t (Reach G s) st { st2 with touched := s :: st2.touched } ∧ (st2.found = false → s ∈ st2.excl) := by
          intro st2 g hall
          have hse : s ∈ st2.excl := g.excl s List.mem_cons_self
          refine ⟨⟨fun x hx => g.excl x (List.mem_cons_of_mem _ hx), fun x hx => ?_, fun x hx => ?_,
            fun x hx => List.mem_cons_of_mem _ (g.kept x hx), fun h => ?_, fun h => ?_⟩, fun _ => hse⟩
          · rcases g.reach x hx with hx | hx
            · rcases List.mem_cons.mp hx with rfl | hx
              · exact Or.inr Relation.ReflTransGen.refl
              · exact Or.inl hx
            · exact Or.inr hx
          · rcases List.mem_cons.mp hx with rfl | hx
            · exact Or.inr Relation.ReflTransGen.refl
            · exact g.touched x hx
          · obtain ⟨q, a, b, c, d⟩ := g.hit h
            exact ⟨q, a, b, c, List.mem_cons_of_mem _ d⟩
          · obtain ⟨a, b⟩ := g.miss h
            refine ⟨a, fun x hx hn => ?_⟩
            by_cases hxs : x = s
            · subst hxs
              exact ⟨ht, List.mem_cons_self, hall h⟩
            · obtain ⟨c, d, e⟩ := b x hx fun hm => by
                rcases List.mem_cons.mp hm with h | h
                · exact hxs h
                · exact hn h
              exact ⟨c, List.mem_cons_of_mem _ d, e⟩
        by_cases hfd : st1.found = true
        · rw [if_pos hfd]
          obtain ⟨a, b⟩ := fin st1 g1 fun h => by rw [hfd] at h; cases h
          exact ⟨_, rfl, a, b⟩
        · rw [if_neg hfd]
          have hfd : st1.found = false := by simpa using hfd
          cases hp : G.sup s with
          | none =>
            obtain ⟨a, b⟩ := fin st1 g1 fun _ y hy => by
              rcases hy with hy | hy
              · exact e1 hfd y hy
              · rw [hp] at hy; cases hy
            exact ⟨_, rfl, a, b⟩
          | some p =>
            have hl1 : left univ st1 < fuel := by
              have := left_mono univ _ _ g1.excl
              omega
            obtain ⟨st2, h2, g2, e2⟩ := go_good G t univ hu fuel p st1 (hu s hs p (Or.inr hp)) hfd hl1
            have hlink : Link G s p := Or.inr hp
            have g2 := g2.mono (R' := Reach G s) fun x hx => Relation.ReflTransGen.head hlink hx
            obtain ⟨a, b⟩ := fin st2 (g1.trans hfd g2) fun h y hy => by
              rcases hy with hy | hy
              · exact g2.excl y (e1 hfd y hy)
              · rw [hp] at hy; cases hy; exact e2 h
            dsimp only
            rw [h2]
            exact ⟨_, rfl, a, b⟩

theorem touched_self (G : Links) (t fuel s : Nat) (st st' : St) (h : go G t fuel s st = some st') : s ∈ st'.touched := by
  cases fuel with
  | zero => cases h
  | succ fuel =>
    rw [go, Option.map_eq_some_iff] at h
    obtain ⟨a, -, rfl⟩ := h
    exact List.mem_cons_self

/-! ### Statements -/

/-- On every finite graph of systems, `removeTerm` called on any system returns, within a depth of calls of one more than the number of systems.
If a system that can be reached has the term, it is removed from exactly one such system and nothing else changes. -/
theorem C93_removed (G : Links) (univ : List Nat) (hu : ∀ x ∈ univ, ∀ y, Link G x y → y ∈ univ) (terms : Nat → List Nat) (s t : Nat) (hs : s ∈ univ)
    (fuel : Nat) (hfuel : univ.length < fuel) (h : ∃ q, Reach G s q ∧ t ∈ terms q) :
    ∃ st q, removeTerm G fuel terms s t = some st ∧ Reach G s q ∧ t ∈ terms q ∧ st.terms q = (terms q).erase t ∧ (∀ x, x ≠ q → st.terms x = terms x) ∧
      s ∈ st.touched ∧ q ∈ st.touched ∧ ∀ x ∈ st.touched, Reach G s x := by
  have hl : left univ ⟨terms, [], false, []⟩ < fuel := Nat.lt_of_le_of_lt (List.length_filter_le _ _) hfuel
  obtain ⟨st, h1, g, e⟩ := go_good G t univ hu fuel s ⟨terms, [], false, []⟩ hs rfl hl
  have hst : s ∈ st.touched := touched_self G t fuel s _ st h1
  have htr : ∀ x ∈ st.touched, Reach G s x := fun x hx => (g.touched x hx).resolve_left (by simp)
  cases hf : st.found with
  | true =>
    obtain ⟨q, a, b, c, d⟩ := g.hit hf
    refine ⟨st, q, h1, a, b, ?_, fun x hx => ?_, hst, d, htr⟩
    · rw [c]; exact if_pos rfl
    · rw [c]; exact if_neg hx
  | false =>
    exfalso
    obtain ⟨a, b⟩ := g.miss hf
    obtain ⟨q, hr, hq⟩ := h
    have hall : ∀ x, Reach G s x → x ∈ st.excl := by
      intro x hx
      induction hx with
      | refl => exact e hf
      | tail _ hl ih => exact (b _ ih (by simp)).2.2 _ hl
    exact (b q (hall q hr) (by simp)).1 hq

/-- If no system that can be reached has it, nothing is removed and nothing raised, and the matrices of all of them are deleted. -/
theorem C93_absent (G : Links) (univ : List Nat) (hu : ∀ x ∈ univ, ∀ y, Link G x y → y ∈ univ) (terms : Nat → List Nat) (s t : Nat) (hs : s ∈ univ)
    (fuel : Nat) (hfuel : univ.length < fuel) (h : ∀ q, Reach G s q → t ∉ terms q) :
    ∃ st, removeTerm G fuel terms s t = some st ∧ st.terms = terms ∧ ∀ x, x ∈ st.touched ↔ Reach G s x := by
  have hl : left univ ⟨terms, [], false, []⟩ < fuel := Nat.lt_of_le_of_lt (List.length_filter_le _ _) hfuel
  obtain ⟨st, h1, g, e⟩ := go_good G t univ hu fuel s ⟨terms, [], false, []⟩ hs rfl hl
  cases hf : st.found with
  | true =>
    obtain ⟨q, a, b, -⟩ := g.hit hf
    exact absurd b (h q a)
  | false =>
    obtain ⟨a, b⟩ := g.miss hf
    have hall : ∀ x, Reach G s x → x ∈ st.excl := by
      intro x hx
      induction hx with
      | refl => exact e hf
      | tail _ hl ih => exact (b _ ih (by simp)).2.2 _ hl
    exact ⟨st, h1, a, fun x => ⟨fun hx => (g.touched x hx).resolve_left (by simp), fun hx => (b x (hall x hx) (by simp)).2.1⟩⟩

/-- A term of the system itself is removed from this system, and no other system is searched. -/
theorem C93_own (G : Links) (fuel : Nat) (terms : Nat → List Nat) (s t : Nat) (h : t ∈ terms s) :
    ∃ st, removeTerm G (fuel + 1) terms s t = some st ∧ st.terms s = (terms s).erase t ∧ (∀ x, x ≠ s → st.terms x = terms x) ∧ st.touched = [s] := by
  unfold removeTerm
  rw [go, if_pos h]
  exact ⟨_, rfl, if_pos rfl, fun x hx => if_neg hx, rfl⟩

/-! ### Examples -/

/-- A composite 0 of a system 1 and a composite 2 of 3 and 4, with a term 10 in 4 and a coupling 11 in 0. -/
abbrev G0 : Links := ⟨fun s => if s = 0 then [1, 2] else if s = 2 then [3, 4] else [], fun s => if s = 1 ∨ s = 2 then some 0 else
  if s = 3 ∨ s = 4 then some 2 else none⟩
abbrev terms0 : Nat → List Nat := fun s => if s = 0 then [11] else if s = 4 then [9, 10] else []

/-- Both are found from system 1, and 10 also from 3. -/
example : ((removeTerm G0 6 terms0 1 10).map fun st => (st.terms 4, st.touched)) = some ([9], [1, 0, 2, 4, 3, 2, 1]) := by decide +kernel
example : ((removeTerm G0 6 terms0 3 11).map fun st => (st.terms 0, st.touched)) = some ([], [3, 2, 0, 4, 2, 3]) := by decide +kernel
example : ((removeTerm G0 6 terms0 1 12).map fun st => (st.terms 0, st.terms 4)) = some ([11], [9, 10]) := by decide +kernel
example : ∀ x ∈ [0, 1, 2, 3, 4], ∀ y, Link G0 x y → y ∈ [0, 1, 2, 3, 4] := by
  intro x hx y hy
  simp only [List.mem_cons, List.not_mem_nil, or_false] at hx
  rcases hx with rfl | rfl | rfl | rfl | rfl <;> simp [Link] at hy ⊢ <;> omega

/-- A cyclic graph is no problem. -/
example : ((removeTerm ⟨fun _ => [0], fun _ => some 0⟩ 2 terms0 0 12).map fun st => st.touched) = some [0, 0, 0] := by decide +kernel

end Verif.Term.Remove
