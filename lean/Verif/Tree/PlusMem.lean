import Verif.Tree.Plus

/-!
# C96: objects and trees

The additions on objects (`plusM`) are those on trees (`plus`) as long as every object is in one place.
-/
namespace Verif.Tree
open Sys
namespace Plus

/-- Which objects are where. -/
inductive Place
  | node (i : Nat) (s : List Place)

/-- The object on top. -/
def Place.root : Place → Nat
  | .node i _ => i

mutual
/-- All objects. -/
def Place.ids : Place → List Nat
  | .node i s => i :: idsL s
/-- All objects of a list. -/
def idsL : List Place → List Nat
  | [] => []
  | t :: r => t.ids ++ idsL r
end

mutual
/-- The number of levels. -/
def Place.height : Place → Nat
  | .node _ s => heightL s + 1
/-- The largest number of levels. -/
def heightL : List Place → Nat
  | [] => 0
  | t :: r => max t.height (heightL r)
end

mutual
/-- The `subSys` of the objects are as stated. -/
def Fits (h : Mem) : Place → Prop
  | .node i s => (h.obj i).subs = s.map Place.root ∧ FitsL h s
/-- The same for a list. -/
def FitsL (h : Mem) : List Place → Prop
  | [] => True
  | t :: r => Fits h t ∧ FitsL h r
end

mutual
/-- The objects as a tree. -/
def tree (h : Mem) : Place → Sys
  | .node i s => node (h.obj i).kind (h.obj i).dim (h.obj i).before (h.obj i).after (treeL h s)
/-- The same for a list. -/
def treeL (h : Mem) : List Place → List Sys
  | [] => []
  | t :: r => tree h t :: treeL h r
end

theorem root_mem (t : Place) : t.root ∈ t.ids := by
  cases t; simp [Place.root, Place.ids]

theorem roots_mem (s : List Place) : ∀ i ∈ s.map Place.root, i ∈ idsL s := by
  induction s with
  | nil => simp
  | cons t r ih =>
    intro i hi
    rw [List.map_cons, List.mem_cons] at hi
    rw [idsL, List.mem_append]
    rcases hi with rfl | hi
    · exact .inl (root_mem t)
    · exact .inr (ih i hi)

theorem fits_subs {h : Mem} {t : Place} (ht : Fits h t) : ∀ i ∈ (h.obj t.root).subs, i ∈ t.ids := by
  cases t with
  | node j s =>
    unfold Fits at ht
    intro i hi
    simp only [Place.root] at hi
    rw [ht.1] at hi
    simp [Place.ids, roots_mem s i hi]

theorem tree_kind (h : Mem) (t : Place) : (tree h t).kind = (h.obj t.root).kind := by
  cases t; simp [tree, kind, Place.root]
theorem tree_before (h : Mem) (t : Place) : (tree h t).before = (h.obj t.root).before := by
  cases t; simp [tree, before, Place.root]
theorem tree_after (h : Mem) (t : Place) : (tree h t).after = (h.obj t.root).after := by
  cases t; simp [tree, after, Place.root]

mutual
theorem frame {h h' : Mem} : ∀ t : Place, (∀ i ∈ t.ids, h'.obj i = h.obj i) → tree h' t = tree h t ∧ (Fits h t → Fits h' t)
  | .node i s, e => by
    have e0 := e i (by simp [Place.ids])
    obtain ⟨a, b⟩ := frameL s (fun j hj => e j (by simp [Place.ids, hj]))
    refine ⟨by simp [tree, e0, a], fun hf => ?_⟩
    unfold Fits at hf ⊢
    exact ⟨by rw [e0]; exact hf.1, b hf.2⟩
theorem frameL {h h' : Mem} : ∀ s : List Place, (∀ i ∈ idsL s, h'.obj i = h.obj i) → treeL h' s = treeL h s ∧ (FitsL h s → FitsL h' s)
  | [], _ => ⟨rfl, fun _ => by simp [FitsL]⟩
  | t :: r, e => by
    obtain ⟨a, b⟩ := frame t (fun j hj => e j (by simp [idsL, hj]))
    obtain ⟨a', b'⟩ := frameL r (fun j hj => e j (by simp [idsL, hj]))
    refine ⟨by simp [treeL, a, a'], fun hf => ?_⟩
    unfold FitsL at hf ⊢
    exact ⟨b hf.1, b' hf.2⟩
end

mutual
theorem dimM_tree {h : Mem} : ∀ (t : Place) (n : Nat), Fits h t → t.height ≤ n → dimM n h t.root = some (tree h t).dimension
  | .node i s, 0, _, hn => by simp [Place.height] at hn
  | .node i s, n + 1, hf, hn => by
    unfold Fits at hf
    have hn : heightL s ≤ n := by simpa [Place.height] using hn
    have := prodM_tree s n hf.2 hn
    have rt : (Place.node i s).root = i := rfl
    rw [rt, dimM, tree, dimension]
    by_cases hk : (h.obj i).kind = some true
    · rw [if_pos hk, if_pos hk, hf.1, this]
    · rw [if_neg hk, if_neg hk]
theorem prodM_tree {h : Mem} : ∀ (s : List Place) (n : Nat), FitsL h s → heightL s ≤ n →
    prodM (dimM n h) (s.map Place.root) = some (dimProd (treeL h s))
  | [], _, _, _ => rfl
  | t :: r, n, hf, hn => by
    unfold FitsL at hf
    have hn : t.height ≤ n ∧ heightL r ≤ n := by simpa [heightL] using hn
    simp [prodM, dimM_tree t n hf.1 hn.1, prodM_tree r n hf.2 hn.2, treeL, dimProd]
end

mutual
theorem setAfterM_tree : ∀ (t : Place) (n v : Nat) (h : Mem), Fits h t → t.ids.Nodup → t.height ≤ n →
    ∃ h', setAfterM n v h t.root = some h' ∧ Fits h' t ∧ tree h' t = setAfter v (tree h t) ∧ h'.next = h.next ∧ ∀ i, i ∉ t.ids → h'.obj i = h.obj i
  | .node i s, 0, _, _, _, _, hn => by simp [Place.height] at hn
  | .node i s, n + 1, v, h, hf, hd, hn => by
    unfold Fits at hf
    have hn : heightL s ≤ n := by simpa [Place.height] using hn
    have hd : i ∉ idsL s ∧ (idsL s).Nodup := by simpa [Place.ids] using hd
    have out : ∀ j ∈ idsL s, (h.put i { h.obj i with after := v }).obj j = h.obj j := by
      intro j hj
      have : j ≠ i := fun e => hd.1 (e ▸ hj)
      simp [Mem.put, this]
    obtain ⟨f1, f2⟩ := frameL s out
    obtain ⟨h', e, g1, g2, g3, g4⟩ := scaleAfterM_tree s n v (h.obj i).after _ (f2 hf.2) hd.2 hn
    refine ⟨h', ?_, ?_, ?_, by rw [g3]; rfl, ?_⟩
    · rw [← hf.1] at e
      exact e
    · unfold Fits
      refine ⟨?_, g1⟩
      rw [g4 i hd.1]
      simp [Mem.put, hf.1]
    · simp only [tree, setAfter, g2, f1, g4 i hd.1]
      simp [Mem.put]
    · intro j hj
      have hj : j ≠ i ∧ j ∉ idsL s := by simpa [Place.ids] using hj
      rw [g4 j hj.2]
      simp [Mem.put, hj.1]
theorem scaleAfterM_tree : ∀ (s : List Place) (n v old : Nat) (h : Mem), FitsL h s → (idsL s).Nodup → heightL s ≤ n →
    ∃ h', loopM (fun h q => setAfterM n ((h.obj q).after * v / old) h q) h (s.map Place.root) = some h' ∧ FitsL h' s ∧
      treeL h' s = scaleAfter v old (treeL h s) ∧ h'.next = h.next ∧ ∀ i, i ∉ idsL s → h'.obj i = h.obj i
  | [], n, v, old, h, _, _, _ => ⟨h, rfl, by simp [FitsL], by simp [treeL, scaleAfter], rfl, fun _ _ => rfl⟩
  | t :: r, n, v, old, h, hf, hd, hn => by
    unfold FitsL at hf
    have hn : t.height ≤ n ∧ heightL r ≤ n := by simpa [heightL] using hn
    have hd : t.ids.Nodup ∧ (idsL r).Nodup ∧ ∀ a ∈ t.ids, ∀ b ∈ idsL r, a ≠ b := by simpa [idsL, List.nodup_append] using hd
    obtain ⟨h1, e1, a1, a2, a3, a4⟩ := setAfterM_tree t n ((h.obj t.root).after * v / old) h hf.1 hd.1 hn.1
    obtain ⟨f1, f2⟩ := frameL (h := h) (h' := h1) r (fun i hi => a4 i (fun hi' => hd.2.2 i hi' i hi rfl))
    obtain ⟨h2, e2, b1, b2, b3, b4⟩ := scaleAfterM_tree r n v old h1 (f2 hf.2) hd.2.1 hn.2
    obtain ⟨f3, f4⟩ := frame (h := h1) (h' := h2) t (fun i hi => b4 i (fun hi' => hd.2.2 i hi i hi' rfl))
    refine ⟨h2, ?_, ?_, ?_, by rw [b3, a3], ?_⟩
    · simp only [List.map_cons, loopM, e1, Option.bind_some]
      exact e2
    · unfold FitsL
      exact ⟨f4 a1, b1⟩
    · simp only [treeL, scaleAfter, f3, a2, b2, f1, tree_after]
    · intro i hi
      have hi : i ∉ t.ids ∧ i ∉ idsL r := by simpa [idsL] using hi
      rw [b4 i hi.2, a4 i hi.1]
end

mutual
theorem setBeforeM_tree : ∀ (t : Place) (n v : Nat) (h : Mem), Fits h t → t.ids.Nodup → t.height ≤ n →
    ∃ h', setBeforeM n v h t.root = some h' ∧ Fits h' t ∧ tree h' t = setBefore v (tree h t) ∧ h'.next = h.next ∧ ∀ i, i ∉ t.ids → h'.obj i = h.obj i
  | .node i s, 0, _, _, _, _, hn => by simp [Place.height] at hn
  | .node i s, n + 1, v, h, hf, hd, hn => by
    unfold Fits at hf
    have hn : heightL s ≤ n := by simpa [Place.height] using hn
    have hd : i ∉ idsL s ∧ (idsL s).Nodup := by simpa [Place.ids] using hd
    have out : ∀ j ∈ idsL s, (h.put i { h.obj i with before := v }).obj j = h.obj j := by
      intro j hj
      have : j ≠ i := fun e => hd.1 (e ▸ hj)
      simp [Mem.put, this]
    obtain ⟨f1, f2⟩ := frameL s out
    obtain ⟨h', e, g1, g2, g3, g4⟩ := scaleBeforeM_tree s n v (h.obj i).before _ (f2 hf.2) hd.2 hn
    refine ⟨h', ?_, ?_, ?_, by rw [g3]; rfl, ?_⟩
    · rw [← hf.1] at e
      exact e
    · unfold Fits
      refine ⟨?_, g1⟩
      rw [g4 i hd.1]
      simp [Mem.put, hf.1]
    · simp only [tree, setBefore, g2, f1, g4 i hd.1]
      simp [Mem.put]
    · intro j hj
      have hj : j ≠ i ∧ j ∉ idsL s := by simpa [Place.ids] using hj
      rw [g4 j hj.2]
      simp [Mem.put, hj.1]
theorem scaleBeforeM_tree : ∀ (s : List Place) (n v old : Nat) (h : Mem), FitsL h s → (idsL s).Nodup → heightL s ≤ n →
    ∃ h', loopM (fun h q => setBeforeM n ((h.obj q).before * v / old) h q) h (s.map Place.root) = some h' ∧ FitsL h' s ∧
      treeL h' s = scaleBefore v old (treeL h s) ∧ h'.next = h.next ∧ ∀ i, i ∉ idsL s → h'.obj i = h.obj i
  | [], n, v, old, h, _, _, _ => ⟨h, rfl, by simp [FitsL], by simp [treeL, scaleBefore], rfl, fun _ _ => rfl⟩
  | t :: r, n, v, old, h, hf, hd, hn => by
    unfold FitsL at hf
    have hn : t.height ≤ n ∧ heightL r ≤ n := by simpa [heightL] using hn
    have hd : t.ids.Nodup ∧ (idsL r).Nodup ∧ ∀ a ∈ t.ids, ∀ b ∈ idsL r, a ≠ b := by simpa [idsL, List.nodup_append] using hd
    obtain ⟨h1, e1, a1, a2, a3, a4⟩ := setBeforeM_tree t n ((h.obj t.root).before * v / old) h hf.1 hd.1 hn.1
    obtain ⟨f1, f2⟩ := frameL (h := h) (h' := h1) r (fun i hi => a4 i (fun hi' => hd.2.2 i hi' i hi rfl))
    obtain ⟨h2, e2, b1, b2, b3, b4⟩ := scaleBeforeM_tree r n v old h1 (f2 hf.2) hd.2.1 hn.2
    obtain ⟨f3, f4⟩ := frame (h := h1) (h' := h2) t (fun i hi => b4 i (fun hi' => hd.2.2 i hi i hi' rfl))
    refine ⟨h2, ?_, ?_, ?_, by rw [b3, a3], ?_⟩
    · simp only [List.map_cons, loopM, e1, Option.bind_some]
      exact e2
    · unfold FitsL
      exact ⟨f4 a1, b1⟩
    · simp only [treeL, scaleBefore, f3, a2, b2, f1, tree_before]
    · intro i hi
      have hi : i ∉ t.ids ∧ i ∉ idsL r := by simpa [idsL] using hi
      rw [b4 i hi.2, a4 i hi.1]
end

theorem loop_tree : ∀ (s : List Place) (c : Place) (n : Nat) (h : Mem), FitsL h s → Fits h c → (idsL s ++ c.ids).Nodup → heightL s ≤ n → c.height ≤ n →
    ∃ h', loopM (besideM n c.root) h (s.map Place.root) = some h' ∧ FitsL h' s ∧ Fits h' c ∧ treeL h' s = (addLoop (treeL h s) (tree h c)).1 ∧
      tree h' c = (addLoop (treeL h s) (tree h c)).2 ∧ h'.next = h.next ∧ ∀ i, i ∉ idsL s → i ∉ c.ids → h'.obj i = h.obj i := by
  intro s c n
  induction s with
  | nil => intro h _ hc _ _ _; exact ⟨h, rfl, by simp [FitsL], hc, by simp [treeL, addLoop], by simp [treeL, addLoop], rfl, fun _ _ _ => rfl⟩
  | cons t r ih =>
    intro h hf hc hd hn hcn
    unfold FitsL at hf
    have hn : t.height ≤ n ∧ heightL r ≤ n := by simpa [heightL] using hn
    have hd : t.ids.Nodup ∧ (idsL r ++ c.ids).Nodup ∧ ∀ a ∈ t.ids, ∀ b ∈ idsL r ++ c.ids, a ≠ b := by
      rw [idsL, List.append_assoc] at hd
      exact List.nodup_append.1 hd
    have hcd : c.ids.Nodup := (List.nodup_append.1 hd.2.1).2.1
    have hrc : ∀ a ∈ idsL r, ∀ b ∈ c.ids, a ≠ b := (List.nodup_append.1 hd.2.1).2.2
    have htr : ∀ a ∈ t.ids, ∀ b ∈ idsL r, a ≠ b := fun a ha b hb => hd.2.2 a ha b (List.mem_append_left _ hb)
    have htc : ∀ a ∈ t.ids, ∀ b ∈ c.ids, a ≠ b := fun a ha b hb => hd.2.2 a ha b (List.mem_append_right _ hb)
    obtain ⟨h1, e1, a1, a2, a3, a4⟩ := setAfterM_tree t n ((h.obj t.root).after * (tree h c).dimension) h hf.1 hd.1 hn.1
    obtain ⟨fc, fc'⟩ := frame (h := h) (h' := h1) c (fun i hi => a4 i (fun hi' => htc i hi' i hi rfl))
    obtain ⟨fr, fr'⟩ := frameL (h := h) (h' := h1) r (fun i hi => a4 i (fun hi' => htr i hi' i hi rfl))
    obtain ⟨h2, e2, b1, b2, b3, b4⟩ := setBeforeM_tree c n ((h1.obj c.root).before * (tree h1 t).dimension) h1 (fc' hc) hcd hcn
    obtain ⟨ft, ft'⟩ := frame (h := h1) (h' := h2) t (fun i hi => b4 i (fun hi' => htc i hi i hi' rfl))
    obtain ⟨gr, gr'⟩ := frameL (h := h1) (h' := h2) r (fun i hi => b4 i (fun hi' => hrc i hi i hi' rfl))
    obtain ⟨h3, e3, c1, c2, c3, c4, c5, c6⟩ := ih h2 (gr' (fr' hf.2)) b1 hd.2.1 hn.2 hcn
    obtain ⟨gt, gt'⟩ := frame (h := h2) (h' := h3) t (fun i hi => c6 i (fun hi' => htr i hi i hi' rfl) (fun hi' => htc i hi i hi' rfl))
    have ec : tree h2 c = setBefore ((tree h c).before * (tree h t).dimension) (tree h c) := by
      rw [b2, a2, dimension_setAfter, ← tree_before, fc]
    refine ⟨h3, ?_, ?_, c2, ?_, ?_, by rw [c5, b3, a3], ?_⟩
    · simp only [List.map_cons, loopM]
      have : besideM n c.root h t.root = some h2 := by
        simp only [besideM, dimM_tree c n hc hcn, Option.bind_some, e1, dimM_tree t n a1 hn.1, e2]
      rw [this]
      exact e3
    · unfold FitsL
      exact ⟨gt' (ft' a1), c1⟩
    · simp only [treeL, addLoop, c3, gr, fr, ec, gt, ft, a2, tree_after]
    · simp only [treeL, addLoop, c4, gr, fr, ec]
    · intro i hi hic
      have hi : i ∉ t.ids ∧ i ∉ idsL r := by simpa [idsL] using hi
      rw [c6 i hi.2 hic, b4 i hic, a4 i hi.1]

/-- `addSubSys` on objects is `addSub` on trees. -/
theorem addSubM_tree (a : Nat) (s : List Place) (c : Place) (n : Nat) (h : Mem) (hf : Fits h (.node a s)) (hc : Fits h c)
    (hd : ((Place.node a s).ids ++ c.ids).Nodup) (hn : heightL s ≤ n) (hcn : c.height ≤ n) (r : Sys)
    (hr : addSub (tree h (.node a s)) (tree h c) = some r) :
    ∃ h', addSubM n h a c.root = some h' ∧ Fits h' (.node a (s ++ [c])) ∧ tree h' (.node a (s ++ [c])) = r ∧ h'.next = h.next ∧
      ∀ i, i ∉ (Place.node a s).ids → i ∉ c.ids → h'.obj i = h.obj i := by
  have hk : (h.obj a).kind ≠ some false := by
    intro hk
    simp [tree, hk, addSub] at hr
  have hr' : r = node (some true) (h.obj a).dim (h.obj a).before (h.obj a).after
      ((addLoop (treeL h s) (tree h c)).1 ++ [(addLoop (treeL h s) (tree h c)).2]) := by
    simp only [tree] at hr
    cases hkk : (h.obj a).kind with
    | none => rw [hkk] at hr; exact (Option.some.inj hr).symm
    | some b => cases b with
      | true => rw [hkk] at hr; exact (Option.some.inj hr).symm
      | false => exact absurd hkk hk
  have hd' : a ∉ idsL s ∧ a ∉ c.ids ∧ (idsL s ++ c.ids).Nodup := by
    have : a ∉ idsL s ++ c.ids ∧ (idsL s ++ c.ids).Nodup := by
      simpa [Place.ids] using hd
    exact ⟨fun x => this.1 (List.mem_append_left _ x), fun x => this.1 (List.mem_append_right _ x), this.2⟩
  have hsc : ∀ x ∈ idsL s, ∀ y ∈ c.ids, x ≠ y := (List.nodup_append.1 hd'.2.2).2.2
  have n1 : a ∉ (h.obj c.root).subs := fun hm => hd'.2.1 (fits_subs hc a hm)
  have n2 : c.root ∉ (h.obj a).subs := by
    unfold Fits at hf
    rw [hf.1]
    exact fun hm => hsc _ (roots_mem s _ hm) _ (root_mem c) rfl
  have put : ∀ i, i ≠ a → (h.put a { h.obj a with kind := some true }).obj i = h.obj i := fun i hi => by simp [Mem.put, hi]
  obtain ⟨p1, p2⟩ := frameL (h := h) s (fun i hi => put i (fun e => hd'.1 (e ▸ hi)))
  obtain ⟨q1, q2⟩ := frame (h := h) c (fun i hi => put i (fun e => hd'.2.1 (e ▸ hi)))
  unfold Fits at hf
  obtain ⟨h1, e1, c1, c2, c3, c4, c5, c6⟩ := loop_tree s c n _ (p2 hf.2) (q2 hc) hd'.2.2 hn hcn
  have ea : h1.obj a = { h.obj a with kind := some true } := by
    rw [c6 a hd'.1 hd'.2.1]; simp [Mem.put]
  have put' : ∀ i, i ≠ a → (h1.put a { h1.obj a with subs := (h1.obj a).subs ++ [c.root] }).obj i = h1.obj i := fun i hi => by simp [Mem.put, hi]
  obtain ⟨p3, p4⟩ := frameL (h := h1) s (fun i hi => put' i (fun e => hd'.1 (e ▸ hi)))
  obtain ⟨q3, q4⟩ := frame (h := h1) c (fun i hi => put' i (fun e => hd'.2.1 (e ▸ hi)))
  have snoc : ∀ (h : Mem) (s : List Place), treeL h (s ++ [c]) = treeL h s ++ [tree h c] ∧ (FitsL h (s ++ [c]) ↔ FitsL h s ∧ Fits h c) := by
    intro h s
    induction s with
    | nil => simp [treeL, FitsL]
    | cons t r ih => simp [treeL, FitsL, ih.1, ih.2, and_assoc]
  refine ⟨h1.put a { h1.obj a with subs := (h1.obj a).subs ++ [c.root] }, ?_, ?_, ?_, by show h1.next = _; rw [c5]; rfl, ?_⟩
  · unfold addSubM
    rw [if_neg n1, if_neg hk]
    have s1 : ((h.put a { h.obj a with kind := some true }).obj a).subs = (h.obj a).subs := by simp [Mem.put]
    show (if c.root ∈ ((h.put a { h.obj a with kind := some true }).obj a).subs then _ else
      (loopM (besideM n c.root) (h.put a { h.obj a with kind := some true }) ((h.put a { h.obj a with kind := some true }).obj a).subs).map _) = _
    rw [if_neg (by rw [s1]; exact n2)]
    have e1' : loopM (besideM n c.root) (h.put a { h.obj a with kind := some true }) ((h.put a { h.obj a with kind := some true }).obj a).subs =
        some h1 := by rw [s1, hf.1]; exact e1
    rw [e1']
    rfl
  · unfold Fits
    refine ⟨?_, (snoc _ s).2.2 ⟨p4 c1, q4 c2⟩⟩
    simp [Mem.put, ea, hf.1]
  · rw [hr', tree, (snoc _ s).1, p3, q3, c3, c4, p1, q1]
    simp [Mem.put, ea]
  · intro i hi hic
    have hi : i ≠ a ∧ i ∉ idsL s := by simpa [Place.ids] using hi
    rw [put' i hi.1, c6 i hi.2 hic, put i hi.1]

/-- **C96** (objects).  If no object is in two places of the operands, then `a + b` on objects is what it is on trees: the same exception,
the same object returned, and the same tree below it.  No other object is changed. -/
theorem C96_objects (p c : Place) (n : Nat) (h : Mem) (hp : Fits h p) (hc : Fits h c) (hd : (p.ids ++ c.ids).Nodup)
    (hnew : ∀ i ∈ p.ids ++ c.ids, i < h.next) (hpn : p.height ≤ n) (hcn : c.height ≤ n) :
    (plus (tree h p) (tree h c) = none → plusM n h p.root c.root = none) ∧
    ∀ w r, plus (tree h p) (tree h c) = some (w, r) → ∃ h' t, plusM n h p.root c.root = some (h', t.root) ∧ Fits h' t ∧ tree h' t = r ∧
      t.root = (match w with | .self => p.root | .other => c.root | .new => h.next) ∧ t.ids.Nodup ∧ (∀ i ∈ t.ids, i < h'.next) ∧
      ∀ i, i < h.next → i ∉ p.ids → i ∉ c.ids → h'.obj i = h.obj i := by
  cases p with
  | node a s =>
  cases c with
  | node b u =>
  have hab : b ≠ a := by
    intro e
    subst e
    simp [Place.ids] at hd
  have kp : (tree h (.node a s)).kind = (h.obj a).kind := rfl
  have kc : (tree h (.node b u)).kind = (h.obj b).kind := rfl
  have hsn : heightL s ≤ n := Nat.le_of_succ_le hpn
  have hun : heightL u ≤ n := Nat.le_of_succ_le hcn
  have idsL_snoc : ∀ (s : List Place) (c : Place), idsL (s ++ [c]) = idsL s ++ c.ids := by
    intro s c
    induction s with
    | nil => simp [idsL]
    | cons t r ih => simp [idsL, ih]
  have hdc : ((Place.node b u).ids ++ (Place.node a s).ids).Nodup := (List.perm_append_comm.nodup_iff).1 hd
  have ra : (Place.node a s).root = a := rfl
  have rb : (Place.node b u).root = b := rfl
  have pm : plusM n h a b =
      if (h.obj a).kind ≠ some false ∧ (h.obj b).kind ≠ some true then (addSubM n h a b).map fun h => (h, a)
      else if (h.obj a).kind = none ∧ (h.obj b).kind = some true then some (h, b)
      else if (h.obj a).kind = (h.obj b).kind then
        (addSubM n (h.alloc ⟨none, 1, 1, 1, []⟩).1 h.next a).bind fun h1 => (addSubM n h1 h.next b).map fun h2 => (h2, h.next)
      else if (h.obj a).kind ≠ some true ∧ (h.obj b).kind = some true then (addSubM n h b a).map fun h => (h, b)
      else none := by
    unfold plusM operandM
    simp only [if_neg hab]
    rfl
  rw [ra, rb, pm]
  unfold plus
  rw [kp, kc]
  by_cases h1 : (h.obj a).kind ≠ some false ∧ (h.obj b).kind ≠ some true
  · rw [if_pos h1, if_pos h1]
    obtain ⟨r, hr, _⟩ := addSub_composite (tree h (.node a s)) (tree h (.node b u)) h1.1
    rw [hr]
    refine ⟨fun hx => (by cases hx), fun w r' hx => ?_⟩
    injection hx with hx
    injection hx with hw hrr
    subst hw hrr
    obtain ⟨h', e, g1, g2, g3, g4⟩ := addSubM_tree a s (.node b u) n h hp hc hd hsn hcn r hr
    refine ⟨h', .node a (s ++ [.node b u]), ?_, g1, g2, rfl, ?_, ?_, fun i _ => g4 i⟩
    · have e : addSubM n h a b = some h' := e
      rw [e]; rfl
    · simpa [Place.ids, idsL_snoc] using hd
    · intro i hi
      rw [g3]
      exact hnew i (by simpa [Place.ids, idsL_snoc] using hi)
  · rw [if_neg h1, if_neg h1]
    by_cases h2 : (h.obj a).kind = none ∧ (h.obj b).kind = some true
    · rw [if_pos h2, if_pos h2]
      refine ⟨fun hx => (by cases hx), fun w r' hx => ?_⟩
      injection hx with hx
      injection hx with hw hrr
      subst hw hrr
      exact ⟨h, .node b u, rfl, hc, rfl, rfl, (List.nodup_append.1 hd).2.1, fun i hi => hnew i (List.mem_append_right _ hi), fun _ _ _ _ => rfl⟩
    · rw [if_neg h2, if_neg h2]
      by_cases h3 : (h.obj a).kind = (h.obj b).kind
      · rw [if_pos h3, if_pos h3]
        have na : ∀ i ∈ (Place.node a s).ids ++ (Place.node b u).ids, i ≠ h.next := fun i hi => Nat.ne_of_lt (hnew i hi)
        let h0 : Mem := (h.alloc ⟨none, 1, 1, 1, []⟩).1
        have o0 : ∀ i, i ≠ h.next → h0.obj i = h.obj i := fun i hi => by simp [h0, Mem.alloc, Mem.put, hi]
        have oN : h0.obj h.next = ⟨none, 1, 1, 1, []⟩ := by simp [h0, Mem.alloc, Mem.put]
        obtain ⟨fa, fa'⟩ := frame (h := h) (h' := h0) (.node a s) (fun i hi => o0 i (na i (List.mem_append_left _ hi)))
        obtain ⟨fb, fb'⟩ := frame (h := h) (h' := h0) (.node b u) (fun i hi => o0 i (na i (List.mem_append_right _ hi)))
        have fN : Fits h0 (.node h.next []) := by
          unfold Fits
          rw [oN]
          exact ⟨rfl, by simp [FitsL]⟩
        have tN : tree h0 (.node h.next []) = blank := by
          rw [tree, oN]; rfl
        obtain ⟨x, hx, hxk, _⟩ := addSub_composite blank (tree h (.node a s)) (by simp [blank, kind])
        obtain ⟨y, hy, _⟩ := addSub_composite x (tree h (.node b u)) (by rw [hxk]; simp)
        have dN : ((Place.node h.next []).ids ++ (Place.node a s).ids).Nodup := by
          have : h.next ∉ (Place.node a s).ids := fun hm => na _ (List.mem_append_left _ hm) rfl
          show (h.next :: (idsL [] ++ (Place.node a s).ids)).Nodup
          rw [idsL, List.nil_append]
          exact List.nodup_cons.2 ⟨this, (List.nodup_append.1 hd).1⟩
        obtain ⟨h1', e1, g1, g2, g3, g4⟩ := addSubM_tree h.next [] (.node a s) n h0 fN (fa' hp) dN (Nat.zero_le _) hpn x (by rw [tN, fa]; exact hx)
        have ob : ∀ i ∈ (Place.node b u).ids, h1'.obj i = h0.obj i := fun i hi => g4 i
          (by
            have := na i (List.mem_append_right _ hi)
            simpa [Place.ids, idsL] using this)
          (fun hi' => (List.nodup_append.1 hd).2.2 i hi' i hi rfl)
        obtain ⟨fb2, fb2'⟩ := frame (h := h0) (h' := h1') (.node b u) ob
        have dN2 : ((Place.node h.next [.node a s]).ids ++ (Place.node b u).ids).Nodup := by
          show (h.next :: (idsL [.node a s] ++ (Place.node b u).ids)).Nodup
          have : idsL [.node a s] = (Place.node a s).ids := by simp [idsL]
          rw [this]
          exact List.nodup_cons.2 ⟨fun hm => na _ hm rfl, hd⟩
        obtain ⟨h2', e2, k1, k2, k3, k4⟩ := addSubM_tree h.next [.node a s] (.node b u) n h1' g1 (fb2' (fb' hc)) dN2
          (by simpa [heightL] using hpn) hcn y (by
            have g2' : tree h1' (.node h.next [.node a s]) = x := g2
            rw [g2', fb2, fb]; exact hy)
        rw [hx, Option.bind_some, hy]
        refine ⟨fun hx => (by cases hx), fun w r' hx => ?_⟩
        injection hx with hx
        injection hx with hw hrr
        subst hw hrr
        refine ⟨h2', .node h.next [.node a s, .node b u], ?_, k1, k2, rfl, ?_, ?_, ?_⟩
        · have e1 : addSubM n (h.alloc ⟨none, 1, 1, 1, []⟩).1 h.next a = some h1' := e1
          have e2 : addSubM n h1' h.next b = some h2' := e2
          show (addSubM n (h.alloc ⟨none, 1, 1, 1, []⟩).1 h.next a).bind _ = _
          rw [e1, Option.bind_some]
          show (addSubM n h1' h.next b).map _ = _
          rw [e2]
          rfl
        · simpa [Place.ids, idsL] using dN2
        · intro i hi
          rw [k3, g3]
          show i < h.next + 1
          have hi : i = h.next ∨ i ∈ (Place.node a s).ids ++ (Place.node b u).ids := by
            simpa [Place.ids, idsL] using hi
          rcases hi with rfl | hi
          · exact Nat.lt_succ_self _
          · exact Nat.lt_succ_of_lt (hnew i hi)
        · intro i hlt hia hib
          have hne : i ≠ h.next := Nat.ne_of_lt hlt
          rw [k4 i (by simpa [Place.ids, idsL, hne] using hia) hib, g4 i (by simpa [Place.ids, idsL] using hne) hia, o0 i hne]
      · rw [if_neg h3, if_neg h3]
        by_cases h4 : (h.obj a).kind ≠ some true ∧ (h.obj b).kind = some true
        · rw [if_pos h4, if_pos h4]
          obtain ⟨r, hr, _⟩ := addSub_composite (tree h (.node b u)) (tree h (.node a s)) (by rw [kc, h4.2]; simp)
          rw [hr]
          refine ⟨fun hx => (by cases hx), fun w r' hx => ?_⟩
          injection hx with hx
          injection hx with hw hrr
          subst hw hrr
          obtain ⟨h', e, g1, g2, g3, g4⟩ := addSubM_tree b u (.node a s) n h hc hp hdc hun hpn r hr
          refine ⟨h', .node b (u ++ [.node a s]), ?_, g1, g2, rfl, ?_, ?_, fun i _ hi hi' => g4 i hi' hi⟩
          · have e : addSubM n h b a = some h' := e
            rw [e]; rfl
          · simpa [Place.ids, idsL_snoc] using hdc
          · intro i hi
            rw [g3]
            exact hnew i (List.perm_append_comm.mem_iff.1 (by simpa [Place.ids, idsL_snoc] using hi))
        · rw [if_neg h4, if_neg h4]
          exact ⟨fun _ => rfl, fun w r hx => by cases hx⟩

/-- `(0 + 1) + (2 + 3)` on objects. -/
example : ((plusM 9 (singles [2, 3, 5, 7]) 0 1).bind fun x => (plusM 9 x.1 2 3).bind fun y => (plusM 9 y.1 x.2 y.2).map fun z =>
    (z.2, (List.range 7).map fun i => ((z.1.obj i).before, (z.1.obj i).after, (z.1.obj i).subs))) =
    some (6, [(1, 105, []), (2, 35, []), (6, 7, []), (30, 1, []), (1, 35, [0, 1]), (6, 1, [2, 3]), (1, 1, [4, 5])]) := by
  decide +kernel

end Plus
end Verif.Tree
