import Verif.Bound.State

/-!
# C89: statements
-/
namespace Verif.StateBound
open Verif.Bound (B)

variable {M I X : Type}

theorem system_bind (lim : Nat) (h : Heap M I X) (c p : Nat) (re detach : Bool) (x : Nat) :
    system (bind lim h c p re detach).2 x = system h x := by
  obtain ⟨-, -, -, -, b5, b6, -⟩ := bind_frame lim h c p re detach
  simp [system, b5, b6]

theorem Linked.exec {A : Alg M I X} {lim : Nat} {h : Heap M I X} {c p : Nat} (H : Linked h c p) (cmd : Cmd I) (h1 : ¬ Touches c cmd)
    (h2 : ¬ Moves p cmd) : Linked (StateBound.exec A lim h cmd) c p := by
  obtain ⟨l1, l2, n, l3, l4⟩ := H
  have hset : ∀ s i (g : Heap M I X), s ≠ c → (g = (StateBound.setSim A h s i).2 ∨ g = (StateBound.setPro A h s i).2) → Linked g c p := by
    intro s i g hs hg
    obtain ⟨f1, -, f3, -, f5, -, -⟩ := set_frame A h s i g hg
    refine ⟨?_, by rw [f1]; exact l2, n, by rw [f3]; exact l3, by rw [f3]; exact l4⟩
    rcases f5 c with e | ⟨rfl, -⟩
    · rw [e]; exact l1
    · exact absurd rfl hs
  cases cmd with
  | setSim s i => exact hset s i _ h1 (.inl rfl)
  | setPro s i => exact hset s i _ h1 (.inr rfl)
  | setDim m d => exact ⟨l1, l2, n, l3, l4⟩
  | time s =>
    have hs : ¬ c = s := fun e => h1 e.symm
    exact ⟨l1, by simp [StateBound.exec, upd, hs, l2], n, l3, l4⟩
  | part s =>
    have hs : ¬ c = s := fun e => h1 e.symm
    exact ⟨by simp [StateBound.exec, setV, upd, hs, l1], l2, n, l3, l4⟩
  | bind a b re detach =>
    have hs : c ≠ a := fun e => h1 e.symm
    obtain ⟨-, -, -, -, b5, b6, b7, b8, -⟩ := bind_frame lim h a b re detach
    refine ⟨?_, ?_, n, by simp only [StateBound.exec, system_bind]; exact l3, by simp only [StateBound.exec, system_bind]; exact l4⟩
    · rcases b8 c with e | ⟨e, -⟩
      · exact e.trans l1
      · exact absurd e hs
    · rcases b7 c with e | ⟨e, -⟩
      · exact e.trans l2
      · exact absurd e hs
  | move s m detach =>
    have hs : c ≠ s := fun e => h1 e.symm
    have hp : p ≠ s := fun e => h2 e.symm
    have e1 : ∀ x, x ≠ s → system { h with owner := upd h.owner s (.protocol (some m)) } x = system h x := by
      intro x hx; simp [system, upd, hx]
    simp only [StateBound.exec]
    cases h.tb s with
    | some t => exact ⟨l1, l2, n, by rw [e1 c hs]; exact l3, by rw [e1 p hp]; exact l4⟩
    | none =>
      dsimp only
      obtain ⟨-, -, -, -, b5, b6, b7, b8, -⟩ := bind_frame lim { h with owner := upd h.owner s (.protocol (some m)) } s m false detach
      refine ⟨?_, ?_, n, by rw [system_bind, e1 c hs]; exact l3, by rw [system_bind, e1 p hp]; exact l4⟩
      · rcases b8 c with e | ⟨e, -⟩
        · exact e.trans l1
        · exact absurd e hs
      · rcases b7 c with e | ⟨e, -⟩
        · exact e.trans l2
        · exact absurd e hs
  | setIss s m =>
    have hs : c ≠ s := fun e => h1 e.symm
    have hp : p ≠ s := fun e => h2 e.symm
    exact ⟨l1, l2, n, by simpa [StateBound.exec, system, upd, hs] using l3, by simpa [StateBound.exec, system, upd, hp] using l4⟩
  | read s =>
    obtain ⟨f1, -, -, -, f5, f6⟩ := get_frame A lim lim h s
    refine ⟨?_, by simp only [StateBound.exec]; rw [f1]; exact l2, n, by simp only [StateBound.exec]; rw [f5]; exact l3,
      by simp only [StateBound.exec]; rw [f5]; exact l4⟩
    rcases f6 c with e | ⟨-, e⟩
    · exact e.trans l1
    · exact absurd l1 (e p)

theorem Own.exec {A : Alg M I X} {lim : Nat} (hL : 0 < lim) {h : Heap M I X} {p : Nat} {i : I} {x : X} {Y : X → Prop} (hY : Y x)
    (H : Own A h.core p i x Y) (cmd : Cmd I) (h1 : ¬ Assigns p cmd) : Own A (StateBound.exec A lim h cmd).core p i x Y := by
  have hset : ∀ s j (g : Heap M I X), s ≠ p → (g = (StateBound.setSim A h s j).2 ∨ g = (StateBound.setPro A h s j).2) → Own A g.core p i x Y := by
    intro s j g hs hg
    obtain ⟨-, -, -, -, f5, f6, f7⟩ := set_frame A h s j g hg
    obtain ⟨v1, v2, v3⟩ := f7 p fun e => hs e.symm
    refine ⟨?_, ?_, v2.trans H.val, v3.trans H.mx, fun v hv => H.made v (v1.symm.trans hv)⟩
    · rcases f5 p with e | ⟨-, e⟩
      · exact e.trans H.st
      · exact e
    · rcases f6 p with e | ⟨-, e⟩
      · exact e.trans H.inp
      · exact e
  have hbind : ∀ (g : Heap M I X) (c q : Nat) (re detach : Bool), Own A g.core p i x Y → ¬ (c = p ∧ re = true) →
      Own A (StateBound.bind lim g c q re detach).2.core p i x Y := by
    intro g c q re detach G hc
    obtain ⟨b1, b2, b3, -, -, -, -, b8, b9⟩ := bind_frame lim g c q re detach
    have gst : g.stB p = .broken := G.st
    have gin : g.inB p = .broken := G.inp
    refine ⟨?_, ?_, by simp only [Heap.core]; rw [b2]; exact G.val, by simp only [Heap.core]; rw [b3]; exact G.mx,
      fun v hv => G.made v (by simp only [Heap.core] at hv ⊢; rw [b1] at hv; exact hv)⟩
    · rcases b8 p with e | ⟨e, -, e' | e'⟩
      · exact e.trans gst
      · rw [gst] at e'; cases e'
      · exact absurd ⟨e.symm, e'⟩ hc
    · rcases b9 p with e | ⟨e, -, e' | e'⟩
      · exact e.trans gin
      · rw [gin] at e'; cases e'
      · exact absurd ⟨e.symm, e'⟩ hc
  cases cmd with
  | setSim s j => exact hset s j _ h1 (.inl rfl)
  | setPro s j => exact hset s j _ h1 (.inr rfl)
  | setDim m d => exact ⟨H.st, H.inp, H.val, H.mx, H.made⟩
  | time s => exact ⟨H.st, H.inp, H.val, H.mx, H.made⟩
  | part s =>
    by_cases hs : p = s
    · subst hs
      exact ⟨by simp [StateBound.exec, setV, Heap.core, upd], H.inp, H.val, H.mx, fun v hv => by simp [StateBound.exec, setV, Heap.core, upd] at hv⟩
    · refine ⟨?_, H.inp, H.val, H.mx, fun v hv => H.made v ?_⟩
      · have := H.st
        simp only [Heap.core] at this
        simp [StateBound.exec, setV, Heap.core, upd, hs, this]
      · simpa [StateBound.exec, setV, Heap.core, upd, hs] using hv
  | bind c q re detach => exact hbind h c q re detach H h1
  | move s m detach =>
    have H' : Own A ({ h with owner := upd h.owner s (.protocol (some m)) } : Heap M I X).core p i x Y := ⟨H.st, H.inp, H.val, H.mx, H.made⟩
    simp only [StateBound.exec]
    cases h.tb s with
    | some t => exact H'
    | none => exact hbind _ s m false detach H' (by simp)
  | setIss s m => exact ⟨H.st, H.inp, H.val, H.mx, H.made⟩
  | read s =>
    obtain ⟨-, h2, -⟩ := get_core A lim lim h s
    simp only [StateBound.exec]
    rw [h2]
    exact getC_own A (system h) lim lim hL h.core s p i x Y hY H

theorem Own.run {A : Alg M I X} {lim : Nat} (hL : 0 < lim) (l : List (Cmd I)) {h : Heap M I X} {p : Nat} {i : I} {x : X} {Y : X → Prop} (hY : Y x)
    (H : Own A h.core p i x Y) (h1 : ∀ cmd ∈ l, ¬ Assigns p cmd) : Own A (StateBound.run A lim l h).core p i x Y := by
  induction l generalizing h with
  | nil => exact H
  | cons c l ih => exact ih (H.exec hL hY c (h1 c List.mem_cons_self)) fun x hx => h1 x (List.mem_cons_of_mem _ hx)

theorem setInput_ok {A : Alg M I X} {h g : Heap M I X} {s : Nat} {i : I} {x : X} (e : setInput A h s i = (.ok x, g)) :
    A.maxOf i = .ok x ∧ g = { h with mx := upd h.mx s (some x), inV := upd h.inV s (some i), inB := upd h.inB s .broken } := by
  unfold setInput at e
  cases hm : A.maxOf i with
  | error e' => rw [hm] at e; cases e
  | ok x' => rw [hm] at e; cases e; exact ⟨rfl, rfl⟩

/-- After a successful assignment the simulation has an input of its own. -/
theorem setSim_own {A : Alg M I X} {h : Heap M I X} {s : Nat} {i : I} (e : (setSim A h s i).1 = .ok ()) :
    ∃ x, A.maxOf i = .ok x ∧ Own A (setSim A h s i).2.core s i x (· = x) := by
  unfold setSim at e ⊢
  cases h1 : setInput A h s i with
  | mk r g =>
    rw [h1] at e
    cases r with
    | error e' => cases e
    | ok x =>
      obtain ⟨hx, hg⟩ := setInput_ok h1
      dsimp only at e ⊢
      refine ⟨x, hx, ?_⟩
      obtain ⟨-, f, e2, -⟩ := issGet_spec g s
      generalize issGet g s = gg at e e2
      obtain ⟨r, g'⟩ := gg
      dsimp only at e2
      subst e2
      cases r with
      | error e' => cases e
      | ok n =>
        dsimp only at e ⊢
        cases hc : A.create (g.dim n) (.given i) (some x) with
        | error e' => rw [hc] at e; cases e
        | ok r =>
          subst hg
          refine ⟨by simp [setV, Heap.core, upd], by simp [setV, Heap.core, upd], by simp [setV, Heap.core, upd], by simp [setV, Heap.core, upd],
            fun v hv => ?_⟩
          simp only [setV, Heap.core, upd, if_true] at hv
          subst hv
          exact ⟨_, x, rfl, hc⟩

theorem setPro_own {A : Alg M I X} {h : Heap M I X} {s : Nat} {i : I} (e : (setPro A h s i).1 = .ok ()) :
    ∃ x, A.maxOf i = .ok x ∧ Own A (setPro A h s i).2.core s i x (fun y => y = x ∨ y = A.one) := by
  unfold setPro at e ⊢
  cases h1 : setInput A h s i with
  | mk r g =>
    rw [h1] at e
    cases r with
    | error e' => cases e
    | ok x =>
      obtain ⟨hx, hg⟩ := setInput_ok h1
      dsimp only at e ⊢
      refine ⟨x, hx, ?_⟩
      cases ho : g.owner s with
      | none => rw [ho] at e; cases e
      | system => rw [ho] at e; cases e
      | protocol o =>
        cases o with
        | none => rw [ho] at e; cases e
        | some n =>
          rw [ho] at e
          dsimp only at e ⊢
          cases hc : A.create (g.dim n) (.given i) (some A.one) with
          | error e' => rw [hc] at e; cases e
          | ok r =>
            subst hg
            refine ⟨by simp [setV, Heap.core, upd], by simp [setV, Heap.core, upd], by simp [setV, Heap.core, upd],
              by simp [setV, Heap.core, upd], fun v hv => ?_⟩
            simp only [setV, Heap.core, upd, if_true] at hv
            subst hv
            exact ⟨_, A.one, .inr rfl, hc⟩

/-! ### Statements -/

/-- A protocol without an initial state of its own shows the initial state of its system (and raises if this one raises), a system without one
shows that of its simulation, at every moment of every program. -/
theorem C89_follows_partial (A : Alg M I X) (rank : Nat → Nat) (lim : Nat) (hlim : ∀ x, rank x < lim) (owner : Nat → Owner) (dim : Nat → Nat)
    (l : List (Cmd I)) (hd : ∀ cmd ∈ l, Down rank cmd) (c p : Nat) (hcp : Linked (run A lim l (fresh owner dim)) c p) :
    (get A lim lim (run A lim l (fresh owner dim)) c).1 = (get A lim lim (run A lim l (fresh owner dim)) p).1 := by
  have H := (Ranked.fresh (M := M) (I := I) (X := X) rank owner dim).run (A := A) (lim := lim) l hd
  generalize run A lim l (fresh owner dim) = h at H hcp ⊢
  obtain ⟨l1, l2, n, l3, l4⟩ := hcp
  rw [(get_core A lim lim h c).1, (get_core A lim lim h p).1]
  exact getC_linked A (system h) rank lim h.core c p n H.tb H.st hlim l1 l2 l3 l4

/-- It begins to follow when it is bound, and goes on following until it is given something of its own. -/
theorem C89_linked (A : Alg M I X) (lim : Nat) (h : Heap M I X) (c p n : Nat) (tree : List Nat) (hb : h.stB c = .none)
    (ht : boundTree h.tb lim p = some tree) (hc : c ∉ tree) (h1 : system h c = .ok n) (h2 : system h p = .ok n) (l : List (Cmd I))
    (hl : ∀ cmd ∈ l, ¬ Touches c cmd ∧ ¬ Moves p cmd) : Linked (run A lim (.bind c p false false :: l) h) c p := by
  have h0 : Linked (exec A lim h (.bind c p false false)) c p := by
    refine ⟨?_, ?_, n, by simp only [exec, system_bind]; exact h1, by simp only [exec, system_bind]; exact h2⟩
    · simp [exec, bind, ht, hc, hb, upd]
    · simp [exec, bind, ht, hc, upd]
  simp only [run, List.foldl_cons]
  generalize exec A lim h (.bind c p false false) = g at h0
  induction l generalizing g with
  | nil => exact h0
  | cons x l ih =>
    obtain ⟨a, b⟩ := hl x List.mem_cons_self
    exact ih (fun y hy => hl y (List.mem_cons_of_mem _ hy)) _ (h0.exec x a b)

/-- Once `system.initialState = i` has succeeded, reading gives the state made of `i` for the dimension the system has when it is read, no matter
what was done in between to dimensions, time parameters and other systems and protocols. -/
theorem C89_current (A : Alg M I X) (hA : A.Fits) (lim : Nat) (hL : 0 < lim) (h : Heap M I X) (p n : Nat) (i : I)
    (he : (setSim A h p i).1 = .ok ()) (l : List (Cmd I)) (hl : ∀ cmd ∈ l, ¬ Assigns p cmd)
    (hn : system (run A lim (.setSim p i :: l) h) p = .ok n) :
    ∃ x, A.maxOf i = .ok x ∧ (get A lim lim (run A lim (.setSim p i :: l) h) p).1 =
      A.create ((run A lim (.setSim p i :: l) h).dim n) (.given i) (some x) := by
  obtain ⟨x, hx, ho⟩ := setSim_own he
  have ho := Own.run (A := A) hL l (Y := (· = x)) rfl ho hl
  refine ⟨x, hx, ?_⟩
  have e : run A lim (.setSim p i :: l) h = run A lim l (setSim A h p i).2 := rfl
  rw [e] at hn ⊢
  rw [(get_core A lim lim _ p).1]
  obtain ⟨y, rfl, hy⟩ := getC_own_value A hA (system (run A lim l (setSim A h p i).2)) lim hL _ p n i x (· = x) rfl ho hn
  exact hy

/-- When another system is assigned as `initialStateSystem` and its dimension is changed, in either order, the state assigned before is made again for
that system and that dimension. -/
theorem C89_other_system (A : Alg M I X) (hA : A.Fits) (lim : Nat) (hL : 0 < lim) (h : Heap M I X) (p n d : Nat) (i : I)
    (he : (setSim A h p i).1 = .ok ()) (l : List (Cmd I)) (hl : ∀ cmd ∈ l, ¬ Assigns p cmd) :
    ∃ x, A.maxOf i = .ok x ∧
      (get A lim lim (run A lim (.setSim p i :: (l ++ [.setIss p n, .setDim n d])) h) p).1 = A.create d (.given i) (some x) ∧
      (get A lim lim (run A lim (.setSim p i :: (l ++ [.setDim n d, .setIss p n])) h) p).1 = A.create d (.given i) (some x) := by
  obtain ⟨x, hx, e1⟩ := C89_current A hA lim hL h p n i he (l ++ [.setIss p n, .setDim n d])
    (by intro c hc; simp at hc; rcases hc with hc | rfl | rfl; exacts [hl c hc, by simp [Assigns], by simp [Assigns]])
    (by simp [run, List.foldl_append, exec, system, upd])
  obtain ⟨y, hy, e2⟩ := C89_current A hA lim hL h p n i he (l ++ [.setDim n d, .setIss p n])
    (by intro c hc; simp at hc; rcases hc with hc | rfl | rfl; exacts [hl c hc, by simp [Assigns], by simp [Assigns]])
    (by simp [run, List.foldl_append, exec, system, upd])
  obtain rfl : x = y := by rw [hx] at hy; cases hy; rfl
  refine ⟨x, hx, ?_, ?_⟩
  · rw [e1]; simp [run, List.foldl_append, exec, upd]
  · rw [e2]; simp [run, List.foldl_append, exec, upd]

/-- Hence a protocol that follows the system starts from the state last assigned to the system, for the present dimension. -/
theorem C89_protocol_current (A : Alg M I X) (hA : A.Fits) (rank : Nat → Nat) (lim : Nat) (hlim : ∀ x, rank x < lim) (owner : Nat → Owner)
    (dim : Nat → Nat) (l1 l2 : List (Cmd I)) (p c n : Nat) (i : I) (hd : ∀ cmd ∈ l1 ++ .setSim p i :: l2, Down rank cmd)
    (he : (setSim A (run A lim l1 (fresh owner dim)) p i).1 = .ok ()) (hl : ∀ cmd ∈ l2, ¬ Assigns p cmd)
    (hcp : Linked (run A lim (l1 ++ .setSim p i :: l2) (fresh owner dim)) c p)
    (hn : system (run A lim (l1 ++ .setSim p i :: l2) (fresh owner dim)) p = .ok n) :
    ∃ x, A.maxOf i = .ok x ∧ (get A lim lim (run A lim (l1 ++ .setSim p i :: l2) (fresh owner dim)) c).1 =
      A.create ((run A lim (l1 ++ .setSim p i :: l2) (fresh owner dim)).dim n) (.given i) (some x) := by
  rw [C89_follows_partial A rank lim hlim owner dim _ hd c p hcp]
  have e : run A lim (l1 ++ .setSim p i :: l2) (fresh owner dim) = run A lim (.setSim p i :: l2) (run A lim l1 (fresh owner dim)) := by
    simp [run, List.foldl_append]
  rw [e] at hn ⊢
  exact C89_current A hA lim (by have := hlim 0; omega) _ p n i he l2 hl hn

/-- An initial state assigned to a protocol is kept whatever happens to the system; when the dimension changes it is made again. -/
theorem C89_own (A : Alg M I X) (hA : A.Fits) (lim : Nat) (hL : 0 < lim) (h : Heap M I X) (c n : Nat) (i : I)
    (he : (setPro A h c i).1 = .ok ()) (l : List (Cmd I)) (hl : ∀ cmd ∈ l, ¬ Assigns c cmd)
    (hn : system (run A lim (.setPro c i :: l) h) c = .ok n) :
    ∃ x y, A.maxOf i = .ok x ∧ (y = x ∨ y = A.one) ∧ (get A lim lim (run A lim (.setPro c i :: l) h) c).1 =
      A.create ((run A lim (.setPro c i :: l) h).dim n) (.given i) (some y) := by
  obtain ⟨x, hx, ho⟩ := setPro_own he
  have ho := Own.run (A := A) hL l (Y := fun y => y = x ∨ y = A.one) (.inl rfl) ho hl
  have e : run A lim (.setPro c i :: l) h = run A lim l (setPro A h c i).2 := rfl
  rw [e] at hn ⊢
  obtain ⟨y, hY, hy⟩ := getC_own_value A hA (system (run A lim l (setPro A h c i).2)) lim hL _ c n i x _ (.inl rfl) ho hn
  exact ⟨x, y, hx, hY, by rw [(get_core A lim lim _ c).1]; exact hy⟩

/-- Giving a time parameter to a protocol cuts its way to the initial state: as soon as the stored state of the system does not fit (nothing
stored yet, or the dimension was changed), reading raises AttributeError. -/
theorem C89_own_time_raises (A : Alg M I X) (lim : Nat) (h : Heap M I X) (c p : Nat) (hb : h.stB c = .to p) (v : Option M)
    (hv : readP h.stV h.stB (lim + 1) c = some v) (n : Nat) (hn : system h c = .ok n) (hold : ∀ w, v = some w → A.rows w ≠ h.dim n) :
    (get A (lim + 1) (lim + 1) (exec A (lim + 1) h (.time c)) c).1 = .error .attribute := by
  rw [(get_core A _ _ _ c).1]
  have hs : system (exec A (lim + 1) h (.time c)) c = .ok n := hn
  unfold getC
  have hr : readP (exec A (lim + 1) h (.time c)).core.stV (exec A (lim + 1) h (.time c)).core.stB (lim + 1) c = some v := hv
  have hb' : (exec A (lim + 1) h (.time c)).core.stB c = .to p := hb
  have ht : (exec A (lim + 1) h (.time c)).core.tb c = none := by simp [exec, Heap.core, upd]
  have hdim : (exec A (lim + 1) h (.time c)).core.dim n = h.dim n := rfl
  rw [hr, hs, hb', ht]
  cases v with
  | none => simp [fresh?]
  | some w =>
    dsimp only
    rw [if_neg (by simp only [fresh?, hdim, beq_iff_eq]; exact hold w rfl)]

/-- A protocol that is given another system goes on starting from the state of the old one. -/
theorem C89_moved (A : Alg M I X) (rank : Nat → Nat) (lim : Nat) (hlim : ∀ x, rank x < lim) (h : Heap M I X) (H : Ranked rank h) (c p n : Nat)
    (h1 : h.stB c = .to p) (h2 : h.tb c = some p) (hp : system h p = .ok n) (v : M)
    (hv : readP h.stV h.stB lim p = some (some v)) (hfit : A.rows v = h.dim n) (hpc : p ≠ c) (m : Nat) (detach : Bool) :
    (get A lim lim (exec A lim h (.move c m detach)) c).1 = .ok (some v) := by
  have hex : exec A lim h (.move c m detach) = { h with owner := upd h.owner c (.protocol (some m)) } := by
    simp [exec, h2]
  rw [hex]
  generalize hg : ({ h with owner := upd h.owner c (.protocol (some m)) } : Heap M I X) = g
  have gcore : g.core = h.core := by subst hg; rfl
  have gp : system g p = .ok n := by
    subst hg
    rw [← hp]
    simp [system, upd, hpc]
  obtain ⟨k, gc⟩ : ∃ k, system g c = .ok k := by
    subst hg
    simp only [system]
    cases h.iss c with
    | some k => exact ⟨k, rfl⟩
    | none => exact ⟨m, by simp [upd]⟩
  obtain ⟨K, rfl⟩ : ∃ K, lim = K + 1 := ⟨lim - 1, by have := hlim 0; omega⟩
  rw [(get_core A _ _ g c).1, gcore]
  have hrc : readP h.core.stV h.core.stB (K + 1) c = some (some v) := by
    rw [← hv]; exact readP_link rank _ _ H.st _ _ _ (hlim c) h1
  have hps := H.tb c p h2
  have hgp : getC A (system g) (K + 1) K h.core p = (.ok (some v), h.core) := by
    rw [getC_stable A (system g) rank (K + 1) K (K + 1) h.core p H.tb (by have := hlim c; omega) (hlim p)]
    unfold getC
    have : readP h.core.stV h.core.stB (K + 1) p = some (some v) := hv
    rw [this, gp]
    dsimp only
    rw [if_pos (by simpa [fresh?, Heap.core] using hfit)]
  unfold getC
  rw [hrc, gc]
  dsimp only
  by_cases hd : A.rows v = h.core.dim k
  · rw [if_pos (by simpa [fresh?] using hd)]
  · rw [if_neg (by simpa [fresh?] using hd)]
    have e1 : h.core.stB c = .to p := h1
    have e2 : h.core.tb c = some p := h2
    rw [e1, e2]
    dsimp only
    rw [hgp]
    dsimp only
    rw [readP_upd _ _ c p _ e1, hrc]

/-- Assigning an initial state to a simulation without a system raises, but the input is stored. -/
theorem C89_failed_kept (A : Alg M I X) (h : Heap M I X) (s : Nat) (i : I) (x : X) (hx : A.maxOf i = .ok x) (ho : h.owner s = .none)
    (hi : h.iss s = none) : (setSim A h s i).1 = .error .attribute ∧
    ∀ lim, readP (setSim A h s i).2.inV (setSim A h s i).2.inB (lim + 1) s = some (some i) := by
  have e : setSim A h s i = (.error .attribute, { h with mx := upd h.mx s (some x), inV := upd h.inV s (some i), inB := upd h.inB s .broken }) := by
    simp [setSim, setInput, hx, issGet, hi, ho]
  rw [e]
  exact ⟨rfl, fun lim => by simp [readP, upd]⟩

/-! ### States of a single system, and examples -/

/-- `_setGetMaxInput` (`QSimBase.py:242-262`) and `_createInitialState` with its decorator (`QSystem.py:38-57, 152-169`) of a single system, taken
from `Verif.Init.Model`; without `_maxInput` the comparison with the dimension raises TypeError. -/
noncomputable def leafAlg (coef : Bool) : Alg NMat.Mat Init.Inp ℤ where
  rows A := A.rows
  maxOf i := match Init.maxInput i with | none => .error .other | some m => .ok m
  create d a m := match a, m with
    | .given (.arr A), _ => if A.rows = d then .ok (some A) else .error .value
    | .given i, some m => match Init.leafState m d coef i with | none => .error .other | some r => .ok r
    | .stored (some i), some m => match Init.leafState m d coef i with | none => .error .other | some r => .ok r
    | .stored none, _ => .error .value
    | _, none => .error .other
  one := 1

theorem leafState_rows {m : ℤ} {d : ℕ} {coef : Bool} {i : Init.Inp} {A : NMat.Mat} (h : Init.leafState m d coef i = some (some A)) :
    A.rows = d := by
  have key : ∀ e, (if m < d then (Toolbox.superPos d e (!coef)).map fun k => some (Init.ofKet k) else some none) = some (some A) → A.rows = d := by
    intro e he
    by_cases hm : m < d
    · rw [if_pos hm] at he
      cases hs : Toolbox.superPos d e (!coef) with
      | none => rw [hs] at he; cases he
      | some k => rw [hs] at he; cases he; rfl
    · rw [if_neg hm] at he; cases he
  unfold Init.leafState at h
  cases i with
  | none => cases h
  | int n => exact key _ h
  | list l => exact key _ h
  | dict l => exact key _ h
  | arr B => exact key _ h

theorem leafAlg_fits (coef : Bool) : (leafAlg coef).Fits := by
  have key : ∀ (m : ℤ) (d : Nat) (i : Init.Inp) (v : NMat.Mat),
      (match Init.leafState m d coef i with | none => (.error .other : Except Err (Option NMat.Mat)) | some r => .ok r) = .ok (some v) →
        v.rows = d := by
    intro m d i v h
    cases hl : Init.leafState m d coef i with
    | none => rw [hl] at h; cases h
    | some r => rw [hl] at h; cases h; exact leafState_rows hl
  intro d a m v h
  cases a with
  | given i =>
    cases i with
    | arr A =>
      simp only [leafAlg] at h ⊢
      by_cases hA : A.rows = d
      · rw [if_pos hA] at h; cases h; exact hA
      · rw [if_neg hA] at h; cases h
    | none => cases m with
      | none => cases h
      | some m => exact key m d .none v h
    | int n => cases m with
      | none => cases h
      | some m => exact key m d (.int n) v h
    | list l => cases m with
      | none => cases h
      | some m => exact key m d (.list l) v h
    | dict l => cases m with
      | none => cases h
      | some m => exact key m d (.dict l) v h
  | stored i =>
    cases i with
    | none => cases m <;> cases h
    | some i => cases m with
      | none => cases h
      | some m => exact key m d i v h

/-- The state of a single system is the one `superPos` makes for the dimension of the moment. -/
theorem C89_single (coef : Bool) (d : ℕ) (n : ℕ) (hn : n < d) :
    (leafAlg coef).create d (.given (.int n)) (some n) = .ok (some (Init.ofKet (Toolbox.basis d n))) ∧
    (leafAlg coef).maxOf (.int n) = .ok (n : ℤ) := by
  refine ⟨?_, rfl⟩
  have h := Init.leafState_eq (m := (n : ℤ)) (d := d) (f := coef) (i := .int n) (by omega) (Toolbox.C37_int d (n : ℤ) (!coef) (by omega) (by omega))
  simp only [leafAlg, h]
  simp

/-- A small instance: a state is a dimension and a level. -/
def toy : Alg (Nat × Nat) Nat Nat where
  rows v := v.1
  maxOf i := .ok i
  create d a m := match a, m with
    | .given i, some m => .ok (if m < d then some (d, i) else none)
    | .stored (some i), some m => .ok (if m < d then some (d, i) else none)
    | .stored none, _ => .error .value
    | _, none => .error .other
  one := 1

/-- System 0 with its protocols 1 and 2, a simulation 3 without a system. -/
def toyOwner : Nat → Owner
  | 0 => .system
  | 1 => .protocol (some 0)
  | 2 => .protocol (some 0)
  | 4 => .system
  | _ => .none

/-- The protocols are bound, an initial state is assigned to the system, the other protocol gets its own, and the dimension is changed. -/
def toyProgram : List (Cmd Nat) :=
  [.bind 1 0 false false, .bind 2 0 false false, .setSim 0 2, .read 1, .setPro 2 1, .setDim 0 5]

def toyHeap : Heap (Nat × Nat) Nat Nat := run toy 10 toyProgram (fresh toyOwner fun _ => 3)

theorem toy_fits : toy.Fits := by
  intro d a m v h
  cases a with
  | given i => cases m with
    | none => cases h
    | some m =>
      simp only [toy] at h ⊢
      by_cases hm : m < d
      · rw [if_pos hm] at h; cases h; rfl
      · rw [if_neg hm] at h; cases h
  | stored i => cases i with
    | none => cases h
    | some i => cases m with
      | none => cases h
      | some m =>
        simp only [toy] at h ⊢
        by_cases hm : m < d
        · rw [if_pos hm] at h; cases h; rfl
        · rw [if_neg hm] at h; cases h

/-- The value read, and `none` for an exception. -/
def value (h : Heap (Nat × Nat) Nat Nat) (s : Nat) : Option (Option (Nat × Nat)) :=
  match (get toy 10 10 h s).1 with
  | .ok v => some v
  | .error _ => none

example : value toyHeap 1 = some (some (5, 2)) ∧ value toyHeap 2 = some (some (5, 1)) ∧ value toyHeap 0 = some (some (5, 2)) := by decide +kernel
example : Linked toyHeap 1 0 := by
  refine ⟨?_, ?_, 0, ?_, ?_⟩ <;> rfl

/-- The hypotheses of `C89_protocol_current` are met. -/
example : ∃ x, toy.maxOf 2 = .ok x ∧ (get toy 10 10 toyHeap 1).1 = toy.create (toyHeap.dim 0) (.given 2) (some x) :=
  C89_protocol_current toy toy_fits (fun n => if n = 0 then 0 else 1) 10 (fun n => by by_cases h : n = 0 <;> simp [h]) toyOwner (fun _ => 3)
    [.bind 1 0 false false, .bind 2 0 false false] [.read 1, .setPro 2 1, .setDim 0 5] 0 1 0 2
    (by intro cmd hc; simp at hc; rcases hc with rfl | rfl | rfl | rfl | rfl | rfl <;> simp [Down]) rfl
    (by intro cmd hc; simp at hc; rcases hc with rfl | rfl | rfl <;> simp [Assigns])
    ⟨rfl, rfl, 0, rfl, rfl⟩ rfl

/-- System 4 of dimension 7 takes the place of system 0. -/
example : value (run toy 10 [.setSim 0 2, .read 1, .setIss 0 4, .setDim 4 7] (fresh toyOwner fun _ => 3)) 0 = some (some (7, 2)) := by
  obtain ⟨x, hx, e, -⟩ := C89_other_system toy toy_fits 10 (by omega) (fresh toyOwner fun _ => 3) 0 4 7 2 rfl [.read 1]
    (by intro c hc; simp at hc; subst hc; simp [Assigns])
  cases hx
  simp only [List.cons_append, List.nil_append] at e
  rw [value, e]
  rfl

/-- `protocol.totalTime = …` and then a change of the dimension: the system still has an initial state, the protocol raises. -/
example : (get toy 10 10 (run toy 10 [.time 1] toyHeap) 1).1 = .error .attribute ∧ value (run toy 10 [.time 1] toyHeap) 0 = some (some (5, 2)) :=
  ⟨C89_own_time_raises toy 9 toyHeap 1 0 rfl (some (3, 2)) rfl 0 rfl (by intro w h; cases h; decide +kernel), by decide +kernel⟩

/-- `protocol.system = other`: the state is still that of the first system, of dimension 5, although the other has dimension 3. -/
example : value (run toy 10 [.read 0, .move 1 4 false] toyHeap) 1 = some (some (5, 2)) ∧
    (run toy 10 [.read 0, .move 1 4 false] toyHeap).dim 4 = 3 := by decide +kernel

/-- The protocol uses the default of `_maxInput`: level 4 of three levels is not reported as too large. -/
example : (toy.create 3 (.given 4) (some 4)) = .ok none ∧ (toy.create 3 (.given 4) (some toy.one)) = .ok (some (3, 4)) := by decide +kernel

example : (setSim toy (fresh toyOwner fun _ => 3) 3 1).1 = .error .attribute ∧
    readP (setSim toy (fresh toyOwner fun _ => 3) 3 1).2.inV (setSim toy (fresh toyOwner fun _ => 3) 3 1).2.inB 10 3 = some (some 1) := by
  have h := C89_failed_kept toy (fresh toyOwner fun _ => 3) 3 1 1 rfl rfl rfl
  exact ⟨h.1, h.2 9⟩

end Verif.StateBound
