import Verif.Flags.Model
import Mathlib.Data.Finset.Card
import Mathlib.Data.Finset.Filter
/-!
# C13, C16: change propagation and matrix invalidation
-/
namespace Verif.Flags

theorem Reach.head {e : Nat → Nat → Prop} {a b c : Nat} (h : e a b) (r : Reach e b c) : Reach e a c := by
  induction r with
  | refl => exact .step (.refl a) h
  | step _ e' ih => exact .step ih e'

theorem Reach.cases_head {e : Nat → Nat → Prop} {a c : Nat} (r : Reach e a c) : a = c ∨ ∃ b, e a b ∧ Reach e b c := by
  induction r with
  | refl => exact Or.inl rfl
  | step _ e' ih =>
    rcases ih with rfl | ⟨b, h1, h2⟩
    · exact Or.inr ⟨_, e', .refl _⟩
    · exact Or.inr ⟨b, h1, .step h2 e'⟩

/-! ## C13 -/

/-- `d` depends on `n` directly. -/
def depends (dep : Nat → List Nat) (n d : Nat) : Prop := d ∈ dep n

open Classical in
theorem mark_spec (dep : Nat → List Nat) (b : Bool) (rank : Nat → Nat) (H : ∀ n, ∀ d ∈ dep n, rank d < rank n) :
    ∀ (lim n : Nat) (f : Nat → Bool), rank n < lim →
      mark dep b lim n f = some fun x => if Reach (depends dep) n x then b else f x := by
  intro lim
  induction lim with
  | zero => intro n f h; omega
  | succ lim ih =>
    intro n f hn
    unfold mark
    have key : ∀ (l : List Nat), (∀ d ∈ l, rank d < lim) → ∀ g : Nat → Bool,
        l.foldl (fun (acc : Option (Nat → Bool)) s => acc.bind fun f => mark dep b lim s f) (some g) =
        some fun x => if ∃ d ∈ l, Reach (depends dep) d x then b else g x := by
      intro l
      induction l with
      | nil => intro _ g; simp
      | cons d l ihl =>
        intro hl g
        rw [List.foldl_cons, Option.bind_some, ih d g (hl d (by simp)), ihl (fun d' h' => hl d' (by simp [h']))]
        congr 1
        funext x
        by_cases h1 : ∃ d' ∈ l, Reach (depends dep) d' x
        · rw [if_pos h1, if_pos]
          obtain ⟨d', h2, h3⟩ := h1
          exact ⟨d', by simp [h2], h3⟩
        · rw [if_neg h1]
          by_cases h2 : Reach (depends dep) d x
          · rw [if_pos h2, if_pos ⟨d, by simp, h2⟩]
          · rw [if_neg h2, if_neg]
            rintro ⟨d', h3, h4⟩
            rcases List.mem_cons.mp h3 with rfl | h3
            · exact h2 h4
            · exact h1 ⟨d', h3, h4⟩
    rw [key (dep n) (fun d hd => by have := H n d hd; omega)]
    congr 1
    funext x
    by_cases hx : x = n
    · subst hx
      rw [if_pos (Reach.refl x : Reach (depends dep) x x)]
      split
      · rfl
      · simp
    · by_cases hr : Reach (depends dep) n x
      · rw [if_pos hr, if_pos]
        rcases hr.cases_head with rfl | ⟨d, h1, h2⟩
        · exact absurd rfl hx
        · exact ⟨d, h1, h2⟩
      · rw [if_neg hr, if_neg, if_neg hx]
        rintro ⟨d, h1, h2⟩
        exact hr (h2.head h1)

/-- C13: assigning a different value to an attribute of an object marks the object and all objects that depend on it directly
or transitively, and no other; and it changes no other attribute.  `rank` says that the dependencies are acyclic. -/
theorem C13_marks_partial {V : Type} [DecidableEq V] (st : St V) (rank : Nat → Nat)
    (H : ∀ n, ∀ d ∈ st.dep n, rank d < rank n) (lim n : Nat) (a : String) (v : V) (hn : rank n < lim)
    (hv : v ≠ st.attr n a) :
    ∃ st', setAttr lim st n a v = some st' ∧
      (∀ x, st'.flag x = true ↔ st.flag x = true ∨ Reach (depends st.dep) n x) ∧
      st'.attr n a = v ∧ (∀ x y, ¬ (x = n ∧ y = a) → st'.attr x y = st.attr x y) ∧ st'.dep = st.dep := by
  classical
  unfold setAttr
  rw [if_pos hv, mark_spec st.dep true rank H lim n st.flag hn]
  refine ⟨_, rfl, fun x => ?_, by simp, fun x y h => by simp [h], rfl⟩
  dsimp only
  split
  · rename_i h; simp [h]
  · rename_i h; simp [h]

/-- C13: assigning the value it already has changes nothing, in any graph. -/
theorem C13_equal {V : Type} [DecidableEq V] (st : St V) (lim n : Nat) (a : String) : setAttr lim st n a (st.attr n a) = some st := by
  unfold setAttr; rw [if_neg (by simp)]

/-- C13: over any sequence of assignments an object is marked exactly if it was marked before or an object it depends on got
a different value at some moment.  `assigns` are the assignments made; clearing of flags is not part of the sequence. -/
theorem C13_history {V : Type} [DecidableEq V] (rank : Nat → Nat) (lim : Nat) (l : List (Nat × String × V)) (st : St V)
    (H : ∀ n, ∀ d ∈ st.dep n, rank d < rank n) (hn : ∀ p ∈ l, rank p.1 < lim) :
    ∃ st', l.foldl (fun (acc : Option (St V)) p => acc.bind fun s => setAttr lim s p.1 p.2.1 p.2.2) (some st) = some st' ∧
      st'.dep = st.dep ∧
      ∀ x, st'.flag x = true ↔ st.flag x = true ∨ ∃ (l1 l2 : List (Nat × String × V)) (p : Nat × String × V) (s1 : St V),
        l = l1 ++ p :: l2 ∧
        l1.foldl (fun (acc : Option (St V)) p => acc.bind fun s => setAttr lim s p.1 p.2.1 p.2.2) (some st) = some s1 ∧
        p.2.2 ≠ s1.attr p.1 p.2.1 ∧ Reach (depends st.dep) p.1 x := by
  induction l generalizing st with
  | nil => exact ⟨st, rfl, rfl, fun x => ⟨Or.inl, fun h => by
      rcases h with h | ⟨l1, l2, p, s1, h, -⟩
      · exact h
      · simp at h⟩⟩
  | cons p l ih =>
    obtain ⟨n, a, v⟩ := p
    obtain ⟨s0, e0, f0, d0⟩ : ∃ s0, setAttr lim st n a v = some s0 ∧
        (∀ x, s0.flag x = true ↔ st.flag x = true ∨ (v ≠ st.attr n a ∧ Reach (depends st.dep) n x)) ∧ s0.dep = st.dep := by
      by_cases hv : v = st.attr n a
      · subst hv; exact ⟨st, C13_equal st lim n a, fun x => by simp, rfl⟩
      · obtain ⟨s0, a1, a2, -, -, a5⟩ := C13_marks_partial st rank H lim n a v (hn (n, a, v) (by simp)) hv
        exact ⟨s0, a1, fun x => by rw [a2]; simp [hv], a5⟩
    obtain ⟨st', e1, d1, f1⟩ := ih s0 (by rw [d0]; exact H) (fun p hp => hn p (by simp [hp]))
    refine ⟨st', ?_, d1.trans d0, fun x => ?_⟩
    · rw [List.foldl_cons, Option.bind_some]
      dsimp only
      rw [e0, e1]
    · rw [f1, f0, d0]
      constructor
      · rintro ((h | ⟨h1, h2⟩) | ⟨l1, l2, p, s1, rfl, h2, h3, h4⟩)
        · exact Or.inl h
        · exact Or.inr ⟨[], l, (n, a, v), st, rfl, rfl, h1, h2⟩
        · refine Or.inr ⟨(n, a, v) :: l1, l2, p, s1, rfl, ?_, h3, h4⟩
          rw [List.foldl_cons, Option.bind_some]
          dsimp only
          rw [e0, h2]
      · rintro (h | ⟨l1, l2, p, s1, h1, h2, h3, h4⟩)
        · exact Or.inl (Or.inl h)
        · cases l1 with
          | nil =>
            simp only [List.nil_append, List.cons.injEq] at h1
            obtain ⟨rfl, rfl⟩ := h1
            simp only [List.foldl_nil, Option.some.injEq] at h2
            subst h2
            exact Or.inl (Or.inr ⟨h3, h4⟩)
          | cons q l1 =>
            simp only [List.cons_append, List.cons.injEq] at h1
            obtain ⟨rfl, rfl⟩ := h1
            rw [List.foldl_cons, Option.bind_some] at h2
            dsimp only at h2
            rw [e0] at h2
            exact Or.inr ⟨l1, l2, p, s1, rfl, h2, h3, h4⟩

theorem mark_none_foldl (dep : Nat → List Nat) (b : Bool) (lim : Nat) (l : List Nat) :
    l.foldl (fun (acc : Option (Nat → Bool)) s => acc.bind fun f => mark dep b lim s f) none = none := by
  induction l with
  | nil => rfl
  | cons _ _ ih => simpa using ih

/-- C13 needs acyclicity: if an object depends on itself, marking it exceeds every recursion limit. -/
theorem C13_cycle (dep : Nat → List Nat) (b : Bool) (path : Nat → Nat) (hp : ∀ i, path (i + 1) ∈ dep (path i)) :
    ∀ (lim i : Nat) (f : Nat → Bool), mark dep b lim (path i) f = none := by
  intro lim
  induction lim with
  | zero => intro i f; rfl
  | succ lim ih =>
    intro i f
    unfold mark
    obtain ⟨l1, l2, hl⟩ := List.append_of_mem (hp i)
    rw [hl, List.foldl_append, List.foldl_cons]
    have : ∀ acc : Option (Nat → Bool), (acc.bind fun f => mark dep b lim (path (i + 1)) f) = none := by
      intro acc; cases acc with
      | none => rfl
      | some g => exact ih (i + 1) g
    rw [this, mark_none_foldl]

/-- A sub-system 0 in a composite 1, a term 2 of the sub-system, a protocol 3 of the composite, and an unrelated system 4. -/
def demo : St Nat where
  dep := fun n => if n = 2 then [0] else if n = 0 then [1] else if n = 1 then [3] else []
  flag := fun _ => false
  attr := fun _ _ => 0

def demoRank (n : Nat) : Nat := if n = 2 then 3 else if n = 0 then 2 else if n = 1 then 1 else 0

example : ∀ n, ∀ d ∈ demo.dep n, demoRank d < demoRank n := by
  intro n d hd
  simp only [demo] at hd
  split at hd
  · simp_all [demoRank]
  · split at hd
    · simp_all [demoRank]
    · split at hd
      · simp_all [demoRank]
      · simp at hd
example : (setAttr 10 demo 0 "frequency" 5).map (fun s => [0, 1, 2, 3, 4].map s.flag) =
    some [true, true, false, true, false] := by decide

/-! ## C16 -/
section
variable {M : Type}

/-- `b` is a dependent, sub-system, simulation, bound simulation or term of `a`. -/
def Graph.edge (G : Graph) (a b : Nat) : Prop := b ∈ G.kids a ∨ b ∈ G.post a

/-- One call of `delMatrices` relates its states like this. -/
structure DelRel (G : Graph) (n : Nat) (st st' : DSt M) : Prop where
  pre : ∃ new, st'.exc = st.exc ++ new
  self : n ∈ st'.exc
  post : ∀ t ∈ G.post n, t ∈ st'.exc
  closed : ∀ x ∈ st'.exc, x ∉ st.exc → ∀ y, G.edge x y → y ∈ st'.exc
  sound : ∀ x ∈ st'.exc, x ∈ st.exc ∨ Reach G.edge n x
  nodup : st.exc.Nodup → st'.exc.Nodup
  mat : ∀ x, st'.mat x = if x ∈ st'.exc ∧ x ∉ st.exc then none else st.mat x

/-- The same for a sequence of calls on `l`. -/
structure DelsRel (G : Graph) (l : List Nat) (st st' : DSt M) : Prop where
  pre : ∃ new, st'.exc = st.exc ++ new
  self : ∀ n ∈ l, n ∈ st'.exc
  closed : ∀ x ∈ st'.exc, x ∉ st.exc → ∀ y, G.edge x y → y ∈ st'.exc
  sound : ∀ x ∈ st'.exc, x ∈ st.exc ∨ ∃ n ∈ l, Reach G.edge n x
  nodup : st.exc.Nodup → st'.exc.Nodup
  mat : ∀ x, st'.mat x = if x ∈ st'.exc ∧ x ∉ st.exc then none else st.mat x

theorem pre_mem {st st' : DSt M} (h : ∃ new, st'.exc = st.exc ++ new) {x : Nat} (hx : x ∈ st.exc) : x ∈ st'.exc := by
  obtain ⟨new, e⟩ := h; rw [e]; exact List.mem_append_left _ hx

theorem DelsRel.nil (G : Graph) (st : DSt M) : DelsRel G [] st st :=
  ⟨⟨[], by simp⟩, by simp, fun x h1 h2 => absurd h1 h2, fun x h => Or.inl h, id, fun x => by simp⟩

theorem mat_trans {st st1 st' : DSt M} (p1 : ∃ new, st1.exc = st.exc ++ new) (p2 : ∃ new, st'.exc = st1.exc ++ new)
    (m1 : ∀ x, st1.mat x = if x ∈ st1.exc ∧ x ∉ st.exc then none else st.mat x)
    (m2 : ∀ x, st'.mat x = if x ∈ st'.exc ∧ x ∉ st1.exc then none else st1.mat x) (x : Nat) :
    st'.mat x = if x ∈ st'.exc ∧ x ∉ st.exc then none else st.mat x := by
  rw [m2, m1]
  by_cases h0 : x ∈ st.exc
  · have h1 := pre_mem p1 h0
    simp [h0, h1]
  · by_cases h1 : x ∈ st1.exc
    · have h2 := pre_mem p2 h1
      simp [h0, h1, h2]
    · simp [h0, h1]

theorem DelsRel.cons {G : Graph} {n : Nat} {l : List Nat} {st st1 st' : DSt M} (a : DelRel G n st st1)
    (b : DelsRel G l st1 st') : DelsRel G (n :: l) st st' := by
  refine ⟨?_, ?_, ?_, ?_, fun h => b.nodup (a.nodup h), mat_trans a.pre b.pre a.mat b.mat⟩
  · obtain ⟨n1, e1⟩ := a.pre; obtain ⟨n2, e2⟩ := b.pre
    exact ⟨n1 ++ n2, by rw [e2, e1, List.append_assoc]⟩
  · intro x hx
    rcases List.mem_cons.mp hx with rfl | hx
    · exact pre_mem b.pre a.self
    · exact b.self x hx
  · intro x h1 h2 y hy
    by_cases h3 : x ∈ st1.exc
    · exact pre_mem b.pre (a.closed x h3 h2 y hy)
    · exact b.closed x h1 h3 y hy
  · intro x hx
    rcases b.sound x hx with h | ⟨m, h1, h2⟩
    · rcases a.sound x h with h | h
      · exact Or.inl h
      · exact Or.inr ⟨n, by simp, h⟩
    · exact Or.inr ⟨m, by simp [h1], h2⟩

theorem foldl_none (G : Graph) (lim : Nat) (l : List Nat) :
    l.foldl (fun (acc : Option (DSt M)) k => acc.bind fun st => del G lim k st) none = none := by
  induction l with
  | nil => rfl
  | cons _ _ ih => simpa using ih

/-- Induction step over a list of calls. -/
theorem foldl_rel {G : Graph} {lim : Nat}
    (ih : ∀ n (st st' : DSt M), del G lim n st = some st' → DelRel G n st st') :
    ∀ (l : List Nat) (st st' : DSt M),
      l.foldl (fun (acc : Option (DSt M)) k => acc.bind fun st => del G lim k st) (some st) = some st' → DelsRel G l st st' := by
  intro l
  induction l with
  | nil => intro st st' e; simp only [List.foldl_nil, Option.some.injEq] at e; exact e ▸ DelsRel.nil G st
  | cons n l ihl =>
    intro st st' e
    rw [List.foldl_cons, Option.bind_some] at e
    cases e1 : del G lim n st with
    | none => rw [e1, foldl_none] at e; simp at e
    | some st1 => rw [e1] at e; exact .cons (ih n st st1 e1) (ihl st1 st' e)

/-- Every call that returns does what it should. -/
theorem del_rel (G : Graph) : ∀ (lim n : Nat) (st st' : DSt M), del G lim n st = some st' → DelRel G n st st' := by
  intro lim
  induction lim with
  | zero => intro n st st' e; simp [del] at e
  | succ lim ih =>
    intro n st st' e
    unfold del at e
    by_cases hn : n ∈ st.exc
    · simp only [hn, if_true] at e
      have r := foldl_rel ih _ _ _ e
      refine ⟨r.pre, pre_mem r.pre hn, r.self, r.closed, ?_, r.nodup, r.mat⟩
      intro x hx
      rcases r.sound x hx with h | ⟨m, h1, h2⟩
      · exact Or.inl h
      · exact Or.inr (h2.head (Or.inr h1))
    · simp only [hn, if_false] at e
      generalize e0 : ({ mat := fun x => if x = n then none else st.mat x, exc := st.exc ++ [n] } : DSt M) = st0 at e
      cases e1 : (G.kids n).foldl (fun (acc : Option (DSt M)) k => acc.bind fun st => del G lim k st) (some st0) with
      | none => rw [e1, foldl_none] at e; simp at e
      | some st1 =>
        rw [e1] at e
        have r1 := foldl_rel ih _ _ _ e1
        have r2 := foldl_rel ih _ _ _ e
        have x0 : st0.exc = st.exc ++ [n] := by rw [← e0]
        have m0 : ∀ x, st0.mat x = if x = n then none else st.mat x := by rw [← e0]; exact fun _ => rfl
        have hself : n ∈ st0.exc := by rw [x0]; simp
        have p01 : ∃ new, st'.exc = st0.exc ++ new := by
          obtain ⟨n1, q1⟩ := r1.pre; obtain ⟨n2, q2⟩ := r2.pre
          exact ⟨n1 ++ n2, by rw [q2, q1, List.append_assoc]⟩
        refine ⟨?_, pre_mem p01 hself, r2.self, ?_, ?_, ?_, ?_⟩
        · obtain ⟨nw, q⟩ := p01
          exact ⟨n :: nw, by rw [q, x0]; simp⟩
        · intro x h1 h2 y hy
          by_cases hxn : x = n
          · subst hxn
            rcases hy with hy | hy
            · exact pre_mem r2.pre (r1.self y hy)
            · exact r2.self y hy
          · by_cases h3 : x ∈ st1.exc
            · refine pre_mem r2.pre (r1.closed x h3 ?_ y hy)
              rw [x0]; simp [h2, hxn]
            · exact r2.closed x h1 h3 y hy
        · intro x hx
          rcases r2.sound x hx with h | ⟨m, h1, h2⟩
          · rcases r1.sound x h with h | ⟨m, h1, h2⟩
            · rw [x0] at h
              rcases List.mem_append.mp h with h | h
              · exact Or.inl h
              · right; rw [List.mem_singleton.mp h]; exact .refl n
            · exact Or.inr (h2.head (Or.inl h1))
          · exact Or.inr (h2.head (Or.inr h1))
        · intro hd
          apply r2.nodup; apply r1.nodup; rw [x0]
          exact List.nodup_append.mpr ⟨hd, by simp, by
            intro a ha b hb
            rw [List.mem_singleton.mp hb]
            rintro rfl
            exact hn ha⟩
        · intro x
          have m01 := mat_trans r1.pre r2.pre r1.mat r2.mat x
          rw [m01, m0]
          by_cases hxn : x = n
          · subst hxn
            have := pre_mem p01 hself
            simp [this, hn]
          · have : x ∈ st0.exc ↔ x ∈ st.exc := by rw [x0]; simp [hxn]
            simp [this, hxn]

/-- C16: a call with an empty list removes the matrices of exactly the objects reachable from the given one, and visits each of
them once, in any graph, cyclic or not. -/
theorem C16_exact (G : Graph) (lim n : Nat) (mat : Nat → Option M) {st' : DSt M} (e : del G lim n ⟨mat, []⟩ = some st') :
    (∀ x, Reach G.edge n x → st'.mat x = none) ∧ (∀ x, ¬ Reach G.edge n x → st'.mat x = mat x) ∧
    st'.exc.Nodup ∧ ∀ x, x ∈ st'.exc ↔ Reach G.edge n x := by
  have r := del_rel G lim n _ _ e
  have h : ∀ x, x ∈ st'.exc ↔ Reach G.edge n x := by
    intro x
    constructor
    · intro hx
      rcases r.sound x hx with h | h
      · simp at h
      · exact h
    · intro hx
      induction hx with
      | refl => exact r.self
      | step _ e' ih => exact r.closed _ ih (by simp) _ e'
  refine ⟨fun x hx => ?_, fun x hx => ?_, r.nodup List.nodup_nil, h⟩
  · rw [r.mat, if_pos ⟨(h x).mpr hx, by simp⟩]
  · rw [r.mat, if_neg fun hh => hx ((h x).mp hh.1)]

open Classical in
/-- The number of objects of `S` not yet visited. -/
noncomputable def left (S : Finset Nat) (exc : List Nat) : Nat := (S.filter (· ∉ exc)).card

open Classical in
theorem left_mono (S : Finset Nat) {a b : List Nat} (h : ∀ x ∈ a, x ∈ b) : left S b ≤ left S a :=
  Finset.card_le_card fun x hx => by
    rw [Finset.mem_filter] at hx ⊢
    exact ⟨hx.1, fun h' => hx.2 (h x h')⟩

open Classical in
theorem left_lt (S : Finset Nat) {a : List Nat} {n : Nat} (hn : n ∈ S) (hna : n ∉ a) : left S (a ++ [n]) < left S a := by
  apply Finset.card_lt_card
  refine ⟨fun x hx => ?_, fun h => ?_⟩
  · rw [Finset.mem_filter] at hx ⊢
    exact ⟨hx.1, fun h' => hx.2 (by simp [h'])⟩
  · have := h (Finset.mem_filter.mpr ⟨hn, hna⟩)
    rw [Finset.mem_filter] at this
    exact this.2 (by simp)

/-- A list of calls returns if each does. -/
theorem foldl_returns {G : Graph} {lim : Nat} (S : Finset Nat) (m : Nat)
    (ih : ∀ n ∈ S, ∀ st : DSt M, left S st.exc ≤ m → ∃ st', del G lim n st = some st') :
    ∀ (l : List Nat), (∀ n ∈ l, n ∈ S) → ∀ st : DSt M, left S st.exc ≤ m → ∃ st',
      l.foldl (fun (acc : Option (DSt M)) k => acc.bind fun st => del G lim k st) (some st) = some st' ∧
      left S st'.exc ≤ m := by
  intro l
  induction l with
  | nil => intro _ st h; exact ⟨st, rfl, h⟩
  | cons n l ihl =>
    intro hl st h
    obtain ⟨st1, e1⟩ := ih n (hl n (by simp)) st h
    have r := del_rel G lim n st st1 e1
    have h1 : left S st1.exc ≤ m := Nat.le_trans (left_mono S fun x hx => pre_mem r.pre hx) h
    obtain ⟨st', e', h'⟩ := ihl (fun n hn => hl n (by simp [hn])) st1 h1
    exact ⟨st', by rw [List.foldl_cons, Option.bind_some, e1, e'], h'⟩

/-- A guarded object has no terms of its own. -/
def TermsAreLeaves (G : Graph) : Prop := ∀ n, ∀ t ∈ G.post n, G.post t = []

theorem del_returns (G : Graph) (S : Finset Nat) (hS : ∀ n ∈ S, ∀ y, G.edge n y → y ∈ S) (hT : TermsAreLeaves G) :
    ∀ (m lim n : Nat) (st : DSt M), n ∈ S → left S st.exc ≤ m → 2 * m + 2 ≤ lim → ∃ st', del G lim n st = some st' := by
  intro m
  induction m with
  | zero =>
    intro lim n st hn hm hl
    obtain ⟨lim, rfl⟩ : ∃ l, lim = l + 2 := ⟨lim - 2, by omega⟩
    have all : ∀ x ∈ S, x ∈ st.exc := by
      intro x hx
      by_contra h
      have : 0 < left S st.exc := Finset.card_pos.mpr ⟨x, Finset.mem_filter.mpr ⟨hx, h⟩⟩
      omega
    unfold del
    simp only [all n hn, if_true]
    have : ∀ l : List Nat, (∀ t ∈ l, t ∈ G.post n) →
        l.foldl (fun (acc : Option (DSt M)) k => acc.bind fun st => del G (lim + 1) k st) (some st) = some st := by
      intro l
      induction l with
      | nil => intro _; rfl
      | cons t l ihl =>
        intro hl
        rw [List.foldl_cons, Option.bind_some]
        have : del G (lim + 1) t st = some st := by
          unfold del
          simp only [all t (hS n hn t (Or.inr (hl t (by simp)))), if_true, hT n t (hl t (by simp)), List.foldl_nil]
        rw [this]; exact ihl fun t ht => hl t (by simp [ht])
    exact ⟨st, this _ fun _ h => h⟩
  | succ m ih =>
    -- a call on an unvisited object
    have unv : ∀ (lim n : Nat) (st : DSt M), n ∈ S → n ∉ st.exc → left S st.exc ≤ m + 1 → 2 * m + 3 ≤ lim →
        ∃ st', del G lim n st = some st' := by
      intro lim n st hn hne hm hl
      obtain ⟨lim, rfl⟩ : ∃ l, lim = l + 1 := ⟨lim - 1, by omega⟩
      unfold del
      simp only [hne, if_false]
      have ih' : ∀ k ∈ S, ∀ st : DSt M, left S st.exc ≤ m → ∃ st', del G lim k st = some st' :=
        fun k hk st hst => ih lim k st hk hst (by omega)
      obtain ⟨s1, e1, l1⟩ := foldl_returns S m ih' (G.kids n) (fun k hk => hS n hn k (Or.inl hk))
        { mat := fun x => if x = n then none else st.mat x, exc := st.exc ++ [n] }
        (by have := left_lt S hn hne; dsimp only; omega)
      rw [e1]
      obtain ⟨s2, e2, -⟩ := foldl_returns S m ih' (G.post n) (fun k hk => hS n hn k (Or.inr hk)) s1 l1
      exact ⟨s2, e2⟩
    intro lim n st hn hm hl
    by_cases hne : n ∈ st.exc
    · obtain ⟨lim, rfl⟩ : ∃ l, lim = l + 1 := ⟨lim - 1, by omega⟩
      unfold del
      simp only [hne, if_true]
      have : ∀ l : List Nat, (∀ t ∈ l, t ∈ G.post n) → ∀ st : DSt M, left S st.exc ≤ m + 1 → ∃ st',
          l.foldl (fun (acc : Option (DSt M)) k => acc.bind fun st => del G lim k st) (some st) = some st' := by
        intro l
        induction l with
        | nil => intro _ st _; exact ⟨st, rfl⟩
        | cons t l ihl =>
          intro hl' st hst
          have ht := hl' t (by simp)
          rw [List.foldl_cons, Option.bind_some]
          obtain ⟨s1, e1⟩ : ∃ s1, del G lim t st = some s1 := by
            by_cases htv : t ∈ st.exc
            · obtain ⟨lim, rfl⟩ : ∃ l, lim = l + 1 := ⟨lim - 1, by omega⟩
              refine ⟨st, ?_⟩
              unfold del
              simp only [htv, if_true, hT n t ht, List.foldl_nil]
            · exact unv lim t st (hS n hn t (Or.inr ht)) htv hst (by omega)
          have r := del_rel G lim t st s1 e1
          rw [e1]
          exact ihl (fun t ht => hl' t (by simp [ht])) s1 (Nat.le_trans (left_mono S fun x hx => pre_mem r.pre hx) hst)
      exact this _ (fun _ h => h) st hm
    · exact unv lim n st hn hne hm (by omega)

/-- C16: `delMatrices` returns in every finite graph, cyclic or not: twice the number of objects bounds the depth of the
recursion. -/
theorem C16_terminates (G : Graph) (S : Finset Nat) (hS : ∀ n ∈ S, ∀ y, G.edge n y → y ∈ S) (hT : TermsAreLeaves G)
    (n : Nat) (hn : n ∈ S) (st : DSt M) (lim : Nat) (hl : 2 * S.card + 2 ≤ lim) : ∃ st', del G lim n st = some st' :=
  del_returns G S hS hT S.card lim n st hn (Finset.card_filter_le _ _) hl

/-- C16: with an empty list, in any state `w`, so after any history of calls: exactly the reachable matrices are removed. -/
theorem C16_fresh_call (G : Graph) (S : Finset Nat) (hS : ∀ n ∈ S, ∀ y, G.edge n y → y ∈ S) (hT : TermsAreLeaves G)
    (n : Nat) (hn : n ∈ S) (lim : Nat) (hl : 2 * S.card + 2 ≤ lim) (w : World M) :
    ∃ w', exec G lim (.callFresh n) w = some w' ∧ (∀ x, Reach G.edge n x → w'.mat x = none) ∧
      ∀ x, ¬ Reach G.edge n x → w'.mat x = w.mat x := by
  obtain ⟨st', e⟩ := C16_terminates G S hS hT n hn ⟨w.mat, []⟩ lim hl
  obtain ⟨a, b, -, -⟩ := C16_exact G lim n w.mat e
  exact ⟨{ w with mat := st'.mat }, by simp [exec, e], a, b⟩

/-- C16: the first call of a class without an argument does the same. -/
theorem C16_first_call_partial (G : Graph) (S : Finset Nat) (hS : ∀ n ∈ S, ∀ y, G.edge n y → y ∈ S) (hT : TermsAreLeaves G)
    (cls n : Nat) (hn : n ∈ S) (lim : Nat) (hl : 2 * S.card + 2 ≤ lim) (w : World M) (h0 : w.dflt cls = []) :
    ∃ w', exec G lim (.call cls n) w = some w' ∧ (∀ x, Reach G.edge n x → w'.mat x = none) ∧
      ∀ x, ¬ Reach G.edge n x → w'.mat x = w.mat x := by
  obtain ⟨st', e⟩ := C16_terminates G S hS hT n hn ⟨w.mat, []⟩ lim hl
  obtain ⟨a, b, -, -⟩ := C16_exact G lim n w.mat e
  exact ⟨{ mat := st'.mat, dflt := fun c => if c = cls then st'.exc else w.dflt c }, by simp [exec, h0, e], a, b⟩

/-- C16 is false for repeated calls without an argument: after a first call on an object, whatever is computed in between, a
second call on it removes nothing. -/
theorem C16_second_call_does_nothing (G : Graph) (S : Finset Nat) (hS : ∀ n ∈ S, ∀ y, G.edge n y → y ∈ S)
    (hT : TermsAreLeaves G) (cls n : Nat) (hn : n ∈ S) (lim : Nat) (hl : 2 * S.card + 2 ≤ lim) (w : World M)
    (h0 : w.dflt cls = []) (cs : List (Nat × M)) :
    ∃ w1 w2, run G lim (.call cls n :: cs.map fun p => .compute p.1 p.2) w = some w1 ∧
      exec G lim (.call cls n) w1 = some w2 ∧ w2.mat = w1.mat := by
  obtain ⟨st', e⟩ := C16_terminates G S hS hT n hn ⟨w.mat, []⟩ lim hl
  obtain ⟨-, -, -, hx⟩ := C16_exact G lim n w.mat e
  have comp : ∀ (cs : List (Nat × M)) (w : World M), ∃ w', run G lim (cs.map fun p => Cmd.compute p.1 p.2) w = some w' ∧
      w'.dflt = w.dflt := by
    intro cs
    induction cs with
    | nil => intro w; exact ⟨w, rfl, rfl⟩
    | cons p cs ih =>
      intro w
      obtain ⟨w', a, b⟩ := ih { w with mat := fun x => if x = p.1 then some p.2 else w.mat x }
      exact ⟨w', by simpa [run, exec] using a, b⟩
  obtain ⟨w1, e1, d1⟩ := comp cs { mat := st'.mat, dflt := fun c => if c = cls then st'.exc else w.dflt c }
  have dd : w1.dflt cls = st'.exc := by rw [d1]; simp
  obtain ⟨s2, e2⟩ := C16_terminates G S hS hT n hn ⟨w1.mat, w1.dflt cls⟩ lim hl
  have r := del_rel G lim n _ _ e2
  refine ⟨w1, { mat := s2.mat, dflt := fun c => if c = cls then s2.exc else w1.dflt c }, ?_, by simp [exec, e2], ?_⟩
  · simp only [run, exec, h0, e, Option.map_some, Option.bind_some]
    exact e1
  · funext x
    show s2.mat x = w1.mat x
    rw [r.mat, if_neg]
    rintro ⟨h1, h2⟩
    dsimp only at h2
    rw [dd, hx] at h2
    rcases r.sound x h1 with h | h
    · dsimp only at h; rw [dd, hx] at h; exact h2 h
    · exact h2 h

end

/-- A composite 0 with sub-system 1 (dependent on each other's lists), its simulation 2, a protocol 3 and a term 4; 5 is
unrelated. -/
def demoG : Graph where
  kids := fun n => if n = 0 then [3, 1, 2] else if n = 1 then [0] else if n = 2 then [0] else if n = 4 then [0] else []
  post := fun n => if n = 0 then [4] else []

example : (del demoG 20 1 ⟨fun _ => some 7, []⟩).map (fun s => ((List.range 6).map s.mat, s.exc)) =
    some ([none, none, none, none, none, some 7], [1, 0, 3, 2, 4]) := by decide
example : ∀ n ∈ Finset.range 6, ∀ y, demoG.edge n y → y ∈ Finset.range 6 := by
  intro n _ y hy
  simp only [Graph.edge, demoG] at hy
  rw [Finset.mem_range]
  split at hy <;> (try split at hy) <;> (try split at hy) <;> (try split at hy) <;> simp_all <;> omega
example : TermsAreLeaves demoG := by
  intro n t ht
  simp only [demoG] at ht
  split at ht
  · simp at ht; subst ht; rfl
  · simp at ht

/-- The second call, on literals. -/
theorem C16_second_call_witness :
    (run demoG 20 [.call 0 1, .compute 1 8, .call 0 1] ⟨fun _ => some 7, fun _ => []⟩).map (fun w => w.mat 1) =
    some (some 8) := by decide

end Verif.Flags
