import Verif.Tree.Paths

/-! # Removal -/
namespace Verif.Tree
open Sys

theorem sysAt_append : ∀ (p r : List Nat) (t : Sys), sysAt t (p ++ r) = (sysAt t p).bind fun q => sysAt q r
  | [], r, t => by cases t; simp [sysAt]
  | i :: p, r, node k d b a s => by
    cases hq : s[i]? with
    | none => simp [sysAt, hq]
    | some x => simp [sysAt, hq, sysAt_append p r x]

/-- `pop` one level below a path. -/
theorem pop_append (i : Nat) : ∀ (p : List Nat) (t : Sys), pop (p ++ [i]) t = modifyAt (pop [i]) p t
  | [], t => by simp [modifyAt]
  | [j], node k d b a s => by
    cases hq : s[j]? with
    | none => simp [pop, modifyAt, hq]
    | some x => simp [pop, modifyAt, hq]
  | j :: l :: p, node k d b a s => by
    cases hq : s[j]? with
    | none => simp [pop, modifyAt, hq]
    | some x =>
      have ih := pop_append i (l :: p) x
      simp only [List.cons_append] at ih
      simp only [List.cons_append, pop, hq, ih]
      conv => rhs; unfold modifyAt
      simp only [hq]

theorem sysAt_modifyAt (f : Sys → Option Sys) : ∀ (p : List Nat) (t t' : Sys), modifyAt f p t = some t' →
    ∃ q q', sysAt t p = some q ∧ f q = some q' ∧ sysAt t' p = some q'
  | [], t, t', h => ⟨t, t', by cases t; rfl, h, by cases t'; rfl⟩
  | i :: p, node k d b a s, t', h => by
    cases hq : s[i]? with
    | none => simp [modifyAt, hq] at h
    | some x =>
      cases hx : modifyAt f p x with
      | none => simp [modifyAt, hq, hx] at h
      | some x' =>
        simp only [modifyAt, hq, hx, Option.some.injEq] at h
        subst h
        obtain ⟨q, q', h1, h2, h3⟩ := sysAt_modifyAt f p x x' hx
        have hi : i < s.length := (List.getElem?_eq_some_iff.1 hq).1
        exact ⟨q, q', by simp [sysAt, hq, h1], h2, by simp [sysAt, hi, h3]⟩

theorem modifyAt_trans (f g : Sys → Option Sys) : ∀ (p : List Nat) (t t' : Sys), modifyAt f p t = some t' →
    modifyAt g p t' = modifyAt (fun q => (f q).bind g) p t
  | [], t, t', h => by
    simp only [modifyAt] at h
    simp [modifyAt, h]
  | i :: p, node k d b a s, t', h => by
    cases hq : s[i]? with
    | none => simp [modifyAt, hq] at h
    | some x =>
      cases hx : modifyAt f p x with
      | none => simp [modifyAt, hq, hx] at h
      | some x' =>
        simp only [modifyAt, hq, hx, Option.some.injEq] at h
        subst h
        have hi : i < s.length := (List.getElem?_eq_some_iff.1 hq).1
        simp only [modifyAt, hq, List.getElem?_set_self hi, ← modifyAt_trans f g p x x' hx]
        cases modifyAt g p x' <;> simp

theorem modifyAt_some : ∀ (p : List Nat) (t q : Sys), sysAt t p = some q → modifyAt some p t = some t
  | [], t, q, _ => by cases t; rfl
  | i :: p, node k d b a s, q, h => by
    cases hq : s[i]? with
    | none => simp [sysAt, hq] at h
    | some x =>
      simp only [sysAt, hq] at h
      have hi : i < s.length := (List.getElem?_eq_some_iff.1 hq).1
      have e : s[i] = x := (List.getElem?_eq_some_iff.1 hq).2
      simp only [modifyAt, hq, modifyAt_some p x q h]
      rw [← e]; simp

/-! ### Dimensions of the single systems are not touched by the position setters -/

mutual
theorem dims_setBefore : ∀ (s : Sys) (v : Nat), dims (setBefore v s) = dims s
  | node k d b a s, v => by simp [setBefore, dims, dimsL_scaleBefore s]
theorem dimsL_scaleBefore : ∀ (s : List Sys) (v o : Nat), dimsL (scaleBefore v o s) = dimsL s
  | [], _, _ => by simp [scaleBefore]
  | s :: r, v, o => by simp [scaleBefore, dimsL, dims_setBefore s, dimsL_scaleBefore r]
end

mutual
theorem dims_setAfter : ∀ (s : Sys) (v : Nat), dims (setAfter v s) = dims s
  | node k d b a s, v => by simp [setAfter, dims, dimsL_scaleAfter s]
theorem dimsL_scaleAfter : ∀ (s : List Sys) (v o : Nat), dimsL (scaleAfter v o s) = dimsL s
  | [], _, _ => by simp [scaleAfter]
  | s :: r, v, o => by simp [scaleAfter, dimsL, dims_setAfter s, dimsL_scaleAfter r]
end

theorem dims_addLoop (s : List Sys) (c : Sys) : dimsL (addLoop s c).1 = dimsL s ∧ dims (addLoop s c).2 = dims c := by
  induction s generalizing c with
  | nil => simp [addLoop]
  | cons q r ih => simp [addLoop, dimsL, dims_setAfter, ih, dims_setBefore]

theorem addSub_composite (p c : Sys) (h : p.kind ≠ some false) :
    ∃ p', addSub p c = some p' ∧ p'.kind = some true ∧
      (p.kind = some true → dims p' = dims p ++ dims c) ∧ (p.subs = [] → dims p' = dims c) := by
  cases p with
  | node k d b a s =>
    refine ⟨node (some true) d b a ((addLoop s c).1 ++ [(addLoop s c).2]), ?_, rfl, fun hk => ?_, fun hs => ?_⟩
    · cases k with
      | none => rfl
      | some v => cases v with
        | true => rfl
        | false => simp [kind] at h
    · simp only [kind] at hk
      subst hk
      simp [dims, dimsL_append, dimsL, dims_addLoop]
    · simp only [subs] at hs
      subst hs
      simp [dims, dimsL, addLoop]

theorem addAll_composite (cs : List Sys) (p : Sys) (h : p.kind = some true) :
    ∃ p', addAll p cs = some p' ∧ p'.kind = some true ∧ dims p' = dims p ++ dimsL cs := by
  induction cs generalizing p with
  | nil => exact ⟨p, rfl, h, by simp [dimsL]⟩
  | cons c r ih =>
    obtain ⟨p1, h1, h2, h3, _⟩ := addSub_composite p c (by simp [h])
    obtain ⟨p2, h4, h5, h6⟩ := ih p1 h2
    exact ⟨p2, by simp [addAll, h1, h4], h5, by simp [h6, h3 h, dimsL]⟩

theorem detach_before (s : Sys) : (detach s).before = 1 := by cases s; rfl
theorem detach_after (s : Sys) : (detach s).after = 1 := by cases s; rfl
theorem dims_detach (s : Sys) : dims (detach s) = dims s := by simp [detach, dims_setBefore, dims_setAfter]

theorem skel_kind (s : Sys) : (skel s).kind = s.kind := by cases s; rfl
theorem skel_subs (s : Sys) : (skel s).subs = s.subs.map skel := by cases s; simp [skel, skelL_eq, subs]

mutual
/-- Removing a system of a consistent structure: no exception, the remaining structure is consistent and is the old one
without that entry, and every single system of the removed one has dimension one. -/
theorem remove_spec : ∀ (s root : Sys) (p : List Nat) (q : Sys), p ≠ [] → WF 1 1 root → sysAt root p = some q →
    skel q = skel s → ∃ root' x, remove root p s = some (root', x) ∧ WF 1 1 root' ∧
      pop p (skel root) = some (skel root') ∧ x.before = 1 ∧ x.after = 1 ∧ dims x = (dims s).map fun _ => 1
  | node k d b a s, root, p, q, hp, hw, hg, hsk => by
    unfold remove
    by_cases hk : k = some true
    · subst hk
      simp only [if_true]
      have hqk : q.kind = some true := by rw [← skel_kind, hsk]; rfl
      have hqs : q.subs.map skel = s.map skel := by rw [← skel_subs, hsk, skel_subs]; rfl
      obtain ⟨root₁, xs, h1, hw1, ⟨f, hf⟩, q', hg1, hk1, hs1, hd1⟩ := removeSubs_spec s root p q hp hw hg hqk hqs
      obtain ⟨root₂, h2⟩ := pop_of_get p root₁ q' hp hg1
      obtain ⟨t', h3, hk3, hd3⟩ := addAll_composite xs q' hk1
      refine ⟨root₂, detach t', by simp [h1, hg1, h2, h3], ?_, ?_, detach_before _, detach_after _, ?_⟩
      · refine (wf_pop p root₁ root₂ q' 1 1 hw1 hg1 ?_ h2).1
        cases q'
        simp only [kind, subs] at hk1 hs1
        subst hk1 hs1
        simp [dimension, dimProd]
      · rw [← pop_modify f p _ _ hp hf]
        exact pop_skel p _ _ h2
      · rw [dims_detach, hd3, hd1]
        cases q'
        simp only [kind, subs] at hk1 hs1
        subst hk1 hs1
        simp [dims, dimsL]
    · simp only [hk, if_false]
      obtain ⟨⟨root₁, o⟩, h1⟩ := setDim_total 1 (by simp) p root q hg
      have hw1 := (wf_setDim 1 p root root₁ o 1 1 Nat.one_pos Nat.one_pos hw h1).1
      obtain ⟨q', hg1, hq'⟩ := get_setDim 1 p root q hg root₁ o h1
      obtain ⟨root₂, h2⟩ := pop_of_get p root₁ q' hp hg1
      have hqw := get_wf 1 1 p root q hw hg
      have hqk : q.kind = k := by rw [← skel_kind, hsk]; rfl
      have hd : q'.dimension = 1 ∧ dims q' = [1] := by
        cases q with
        | node k₁ d₁ b₁ a₁ s₁ =>
          simp only [kind] at hqk
          subst hqk
          unfold WF at hqw
          obtain ⟨hs₁, _⟩ := hqw.2.2.2 hk
          subst hs₁
          cases k₁ with
          | none =>
            simp [setDim] at hq'
            obtain ⟨rfl, _⟩ := hq'
            simp [dimension, dims]
          | some v =>
            cases v with
            | true => exact absurd rfl hk
            | false =>
              simp [setDim] at hq'
              obtain ⟨rfl, _⟩ := hq'
              simp [dimension, dims]
      refine ⟨root₂, detach q', by simp [h1, hg1, h2], (wf_pop p root₁ root₂ q' 1 1 hw1 hg1 hd.1 h2).1, ?_,
        detach_before _, detach_after _, ?_⟩
      · obtain ⟨f, hf⟩ := skel_setDim 1 p root root₁ o h1
        rw [← pop_modify f p _ _ hp hf]
        exact pop_skel p _ _ h2
      · rw [dims_detach, hd.2]
        simp [dims, hk]
theorem removeSubs_spec : ∀ (cs : List Sys) (root : Sys) (p : List Nat) (q : Sys), p ≠ [] → WF 1 1 root →
    sysAt root p = some q → q.kind = some true → q.subs.map skel = cs.map skel →
    ∃ root' xs, removeSubs root p cs = some (root', xs) ∧ WF 1 1 root' ∧
      (∃ f, modifyAt f p (skel root) = some (skel root')) ∧
      ∃ q', sysAt root' p = some q' ∧ q'.kind = some true ∧ q'.subs = [] ∧ dimsL xs = (dimsL cs).map fun _ => 1
  | [], root, p, q, hp, hw, hg, hk, hs => by
    refine ⟨root, [], rfl, hw, ⟨some, ?_⟩, q, hg, hk, by simpa using hs, by simp [dimsL]⟩
    exact modifyAt_some p (skel root) (skel q) (get_skel p root q hg)
  | c :: r, root, p, q, hp, hw, hg, hk, hs => by
    cases q with
    | node k d b a s =>
      cases s with
      | nil => simp [subs] at hs
      | cons c₀ r₀ =>
        simp only [kind] at hk
        subst hk
        simp only [subs, List.map_cons, List.cons.injEq] at hs
        have hg0 : sysAt root (p ++ [0]) = some c₀ := by
          rw [sysAt_append, hg]
          cases c₀
          simp [sysAt]
        obtain ⟨root₁, x, h1, hw1, hpop, hb, ha, hd⟩ := remove_spec c root (p ++ [0]) c₀ (by simp) hw hg0 hs.1
        rw [pop_append] at hpop
        obtain ⟨z, z', hz1, hz2, hz3⟩ := sysAt_modifyAt _ p _ _ hpop
        have hz : z = skel (node (some true) d b a (c₀ :: r₀)) := by
          have := get_skel p root _ hg
          rw [hz1] at this
          exact Option.some.inj this
        subst hz
        obtain ⟨q₁, hg1, hq1⟩ := skel_get p root₁ z' hz3
        have hz2' : z' = node (some true) 0 0 0 (r₀.map skel) := by
          have hz4 : pop [0] (skel (node (some true) d b a (c₀ :: r₀))) = some (node (some true) 0 0 0 (r₀.map skel)) := by
            simp [skel, skelL_eq, pop]
          rw [hz4] at hz2
          exact (Option.some.inj hz2).symm
        have hk1 : q₁.kind = some true := by rw [← skel_kind, hq1, hz2']; rfl
        have hs1 : q₁.subs.map skel = r.map skel := by
          rw [← skel_subs, hq1, hz2', ← hs.2]; rfl
        obtain ⟨root₂, xs, h2, hw2, ⟨f, hf⟩, q', hg2, hk2, hs2, hd2⟩ :=
          removeSubs_spec r root₁ p q₁ hp hw1 hg1 hk1 hs1
        refine ⟨root₂, x :: xs, by simp [removeSubs, h1, h2], hw2,
          ⟨fun y => (pop [0] y).bind f, ?_⟩, q', hg2, hk2, hs2, ?_⟩
        · rw [← modifyAt_trans _ f p _ _ hpop]; exact hf
        · simp [dimsL, hd, hd2]
end

end Verif.Tree
