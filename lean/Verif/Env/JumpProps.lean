import Verif.Env.Jump

/-!
# C78: jump operators of dissipators, theorems
-/
namespace Verif.Env.Jump
open Verif.Ham Verif.Flags

variable {F D O M J : Type}

/-! ## What the operations on systems do to the dissipators -/

/-- Systems and terms are not dissipators, and a sub-system is bound to the system that contains it. -/
structure Wf (p : Nat → Bool) (st : St F D O M) : Prop where
  sub : ∀ s x, x ∈ st.sub s → s ∈ st.bound x
  ndS : ∀ s x, x ∈ st.sub s → p x = false
  ndT : ∀ s t, t ∈ st.terms s → p t = false

/-- A change that never leaves a matrix of a dissipator behind its system. -/
structure Keep (p : Nat → Bool) (st st' : St F D O M) : Prop where
  wf : Wf p st'
  bound : ∀ a b, b ∈ st.bound a → b ∈ st'.bound a
  mat : ∀ d, p d = true → st'.mat d = none ∨ st'.mat d = st.mat d
  dims : ∀ d s, p d = true → d ∈ st.bound s → st'.dims s ≠ st.dims s → st'.mat d = none

/-- A change that does not concern the dissipators. -/
structure Quiet (p : Nat → Bool) (st st' : St F D O M) : Prop where
  wf : Wf p st'
  bound : ∀ a b, b ∈ st.bound a → b ∈ st'.bound a
  mat : ∀ d, p d = true → st'.mat d = st.mat d
  dims : st'.dims = st.dims

theorem Quiet.keep {p : Nat → Bool} {st st' : St F D O M} (h : Quiet p st st') : Keep p st st' :=
  ⟨h.wf, h.bound, fun d hd => Or.inr (h.mat d hd), fun _ _ _ _ hn => absurd (congrFun h.dims _) hn⟩

theorem Quiet.refl {p : Nat → Bool} {st : St F D O M} (h : Wf p st) : Quiet p st st := ⟨h, fun _ _ => id, fun _ _ => rfl, rfl⟩

theorem Quiet.trans {p : Nat → Bool} {a b c : St F D O M} (h : Quiet p a b) (k : Quiet p b c) : Quiet p a c :=
  ⟨k.wf, fun x y hy => k.bound x y (h.bound x y hy), fun d hd => (k.mat d hd).trans (h.mat d hd), k.dims.trans h.dims⟩

theorem Keep.trans {p : Nat → Bool} {a b c : St F D O M} (h : Keep p a b) (k : Keep p b c) : Keep p a c := by
  refine ⟨k.wf, fun x y hy => k.bound x y (h.bound x y hy), fun d hd => ?_, fun d s hd hb hn => ?_⟩
  · rcases k.mat d hd with e | e
    · exact Or.inl e
    · rw [e]; exact h.mat d hd
  · by_cases e : c.dims s = b.dims s
    · have := h.dims d s hd hb (by rwa [← e])
      rcases k.mat d hd with e' | e'
      · exact e'
      · rw [e', this]
    · exact k.dims d s hd (h.bound s d hb) e

/-- Other fields. -/
theorem Wf.congr {p : Nat → Bool} {st st' : St F D O M} (h : Wf p st) (e1 : st'.sub = st.sub) (e2 : st'.terms = st.terms)
    (e3 : st'.bound = st.bound) : Wf p st' := by
  obtain ⟨h1, h2, h3⟩ := h
  exact ⟨by rwa [e1, e3], by rwa [e1], by rwa [e2]⟩

theorem Same.quiet {p : Nat → Bool} {st st' : St F D O M} (h : Same st st') (w : Wf p st) (hm : ∀ d, p d = true → st'.mat d = st.mat d) :
    Quiet p st st' := ⟨w.congr h.sub h.terms h.bound, fun a b hb => by rwa [h.bound], hm, h.dims⟩

theorem quiet_mark {p : Nat → Bool} {c : Cfg} {st st' : St F D O M} {n : Nat} (h : Wf p st) (e : mark c st n = some st') :
    Quiet p st st' := by
  obtain ⟨f, -, -, rfl⟩ := mark_eq e
  exact ⟨h.congr rfl rfl rfl, fun _ _ => id, fun d _ => by simp [inval], rfl⟩

theorem quiet_termTotal {p : Nat → Bool} (A : Alg F D O M) {st : St F D O M} {t : Nat} (h : Wf p st) (ht : p t = false) :
    Quiet p st (termTotal A st t).1 := by
  obtain ⟨h1, h2, -, -⟩ := termTotal_spec A st t
  exact Same.quiet h1 h fun d hd => (h2 d (by rintro rfl; rw [ht] at hd; cases hd)).1

theorem quiet_sumLoop {p : Nat → Bool} (A : Alg F D O M) (f : Nat → St F D O M → St F D O M × Option M) : ∀ (l : List Nat) (st : St F D O M)
    (v : M), (∀ x ∈ l, ∀ st, Wf p st → Quiet p st (f x st).1) → Wf p st → Quiet p st (sumLoop A f l st v).1
  | [], st, v, _, h => Quiet.refl h
  | x :: l, st, v, hf, h => by
    have h1 := hf x (by simp) st h
    rw [sumLoop]
    rcases e : f x st with ⟨st1, o⟩
    rw [e] at h1
    cases o with
    | none => exact h1
    | some m =>
      dsimp only
      cases A.add v m with
      | none => exact h1
      | some v' => exact h1.trans (quiet_sumLoop A f l st1 v' (fun y hy => hf y (by simp [hy])) h1.wf)

theorem quiet_total {p : Nat → Bool} (A : Alg F D O M) : ∀ (lim s : Nat) (st : St F D O M), p s = false → Wf p st →
    Quiet p st (total A lim s st).1
  | 0, s, st, _, h => Quiet.refl h
  | lim + 1, s, st, hs, h => by
    rw [total]
    by_cases hc : (st.flag s || (st.mat s).isNone) = true
    · rw [if_pos hc]
      have h1 := quiet_sumLoop A (total A lim) (st.sub s) st A.zero (fun x hx st' h' => quiet_total A lim x st' (h.ndS s x hx) h') h
      rcases e : sumLoop A (total A lim) (st.sub s) st A.zero with ⟨st1, o⟩
      rw [e] at h1
      cases o with
      | none => exact h1
      | some a =>
        dsimp only
        have h2 := quiet_sumLoop A (fun t st => termTotal A st t) ((st1.terms s).filter fun t => (st1.oper t).isSome) st1 A.zero
          (fun t ht st' h' => quiet_termTotal A h' (h1.wf.ndT s t (List.mem_filter.mp ht).1)) h1.wf
        rcases e2 : sumLoop A (fun t st => termTotal A st t) ((st1.terms s).filter fun t => (st1.oper t).isSome) st1 A.zero with ⟨st2, o2⟩
        rw [e2] at h2
        cases o2 with
        | none => exact h1.trans h2
        | some b =>
          dsimp only
          cases A.add a b with
          | none => exact h1.trans h2
          | some m =>
            refine (h1.trans h2).trans ⟨h2.wf.congr rfl rfl rfl, fun _ _ => id, fun d hd => ?_, rfl⟩
            exact Function.update_of_ne (by rintro rfl; rw [hs] at hd; cases hd) _ _
    · rw [if_neg hc]; exact Quiet.refl h

theorem quiet_unitary {p : Nat → Bool} (A : Alg F D O M) (c : Cfg) {st : St F D O M} {q : Nat} (hq : p q = false) (h : Wf p st) :
    Quiet p st (unitary A c st q) := by
  have h1 := quiet_total A c.lim q st hq h
  have hflag : Quiet p st { st with flag := Function.update st.flag q false } := ⟨h.congr rfl rfl rfl, fun _ _ => id, fun _ _ => rfl, rfl⟩
  have hrun : Quiet p st (match total A c.lim q st with
    | (st, none) => st
    | (st, some m) => { st with
        feMat := Function.update st.feMat q (some m), feFlag := Function.update st.feFlag q false, flag := Function.update st.flag q false }) := by
    rcases e : total A c.lim q st with ⟨st1, o⟩
    rw [e] at h1
    cases o with
    | none => exact h1
    | some m => exact h1.trans ⟨h1.wf.congr rfl rfl rfl, fun _ _ => id, fun _ _ => rfl, rfl⟩
  unfold unitary
  dsimp only
  by_cases a : st.feFlag q = true
  · rw [if_pos a]
    by_cases b : st.feFixed q = true
    · rw [if_pos b]; exact hflag
    · rw [if_neg b]; exact hrun
  · rw [if_neg a]
    by_cases b : (st.feMat q).isNone = true
    · rw [if_pos b]; exact hrun
    · rw [if_neg b]; exact hflag

theorem keep_del {p : Nat → Bool} {c : Cfg} {st st' : St F D O M} {n : Nat} (h : Wf p st) (e : delMatrices c st n = some st') :
    Keep p st st' ∧ st'.dims = st.dims ∧ st'.sub = st.sub ∧ (∀ d, st'.mat d = none ∨ st'.mat d = st.mat d) ∧
      ∀ s d, Linked st.sub n s → d ∈ st.bound s → st'.mat d = none := by
  obtain ⟨g, hgn, hg, hgs, -, rfl⟩ := del_eq e
  have hm : ∀ d, (inval st (fun _ => false) g).mat d = none ∨ (inval st (fun _ => false) g).mat d = st.mat d := by
    intro d
    simp only [inval]
    by_cases hd : g d = true
    · left; simp [hd]
    · right; simp [hd]
  refine ⟨⟨h.congr rfl rfl rfl, fun _ _ => id, fun d _ => hm d, fun _ _ _ _ hn => absurd rfl hn⟩, rfl, rfl, hm, fun s d hl hb => ?_⟩
  have := closed_linked hgs (fun s x hx hgx => hg x hgx s (h.sub s x hx)) hl hgn
  simp [inval, hg s this d hb]

theorem keep_dropTerms {p : Nat → Bool} {c : Cfg} {st st' : St F D O M} {q y : Nat} (h : Wf p st) (e : dropTerms c st q y = some st') :
    Keep p st st' ∧ st'.dims = st.dims ∧ st'.sub = st.sub ∧ st'.bound = st.bound ∧ ∀ d, st'.mat d = none ∨ st'.mat d = st.mat d := by
  unfold dropTerms at e
  dsimp only at e
  obtain ⟨st1, e1, e2⟩ := Option.bind_eq_some_iff.mp e
  have hw : Wf p { st with terms := Function.update st.terms q ((st.terms q).filter fun t => !(1 < (st.qsys t).length && (st.qsys t).contains y)) } := by
    refine ⟨h.sub, h.ndS, fun s t ht => ?_⟩
    dsimp only at ht
    by_cases es : s = q
    · subst es; rw [Function.update_self] at ht; exact h.ndT s t (List.mem_filter.mp ht).1
    · rw [Function.update_of_ne es] at ht; exact h.ndT s t ht
  obtain ⟨k1, ed, es, em, -⟩ := keep_del hw e1
  have k2 := quiet_mark k1.wf e2
  obtain ⟨f, -, -, rfl⟩ := mark_eq e2
  have eb : st1.bound = st.bound := by obtain ⟨g, -, -, -, -, rfl⟩ := del_eq e1; rfl
  refine ⟨?_, ed, es, eb, fun d => by simpa [inval] using em d⟩
  have := k1.trans k2.keep
  exact ⟨this.wf, this.bound, this.mat, this.dims⟩

theorem keep_dropAll {p : Nat → Bool} {c : Cfg} : ∀ (l : List (Nat × Nat)) {st st' : St F D O M}, Wf p st → dropAll c l st = some st' →
    Keep p st st' ∧ st'.dims = st.dims ∧ st'.sub = st.sub ∧ st'.bound = st.bound ∧ ∀ d, st'.mat d = none ∨ st'.mat d = st.mat d
  | [], st, st', h, e => by
    simp only [dropAll, Option.some.injEq] at e
    subst e
    exact ⟨(Quiet.refl h).keep, rfl, rfl, rfl, fun _ => Or.inr rfl⟩
  | (q, y) :: l, st, st', h, e => by
    rw [dropAll] at e
    obtain ⟨st1, e1, e2⟩ := Option.bind_eq_some_iff.mp e
    obtain ⟨k1, a1, b1, c1, m1⟩ := keep_dropTerms h e1
    obtain ⟨k2, a2, b2, c2, m2⟩ := keep_dropAll l k1.wf e2
    refine ⟨k1.trans k2, a2.trans a1, b2.trans b1, c2.trans c1, fun d => ?_⟩
    rcases m2 d with m | m
    · exact Or.inl m
    · rw [m]; exact m1 d

theorem keep_delMarks {p : Nat → Bool} {c : Cfg} : ∀ (l : List Nat) {o : Option (St F D O M)} {st' : St F D O M},
    (∀ st, o = some st → Wf p st) →
    l.foldl (fun acc q => acc.bind fun st => (delMatrices c st q).bind fun st => mark c st q) o = some st' →
    ∃ st, o = some st ∧ Keep p st st' ∧ ∀ q ∈ l.head?, ∀ s d, p d = true → Linked st.sub q s → d ∈ st.bound s → st'.mat d = none
  | [], o, st', h, e => by
    simp only [List.foldl_nil] at e
    exact ⟨st', e, (Quiet.refl (h st' e)).keep, by simp⟩
  | q :: l, o, st', h, e => by
    cases o with
    | none =>
      rw [List.foldl_cons] at e
      obtain ⟨_, e', _⟩ := keep_delMarks (p := p) l (o := none) (by simp) e
      cases e'
    | some st =>
      rw [List.foldl_cons] at e
      obtain ⟨st1, e1, k1, -⟩ := keep_delMarks l (o := (delMatrices c st q).bind fun st => mark c st q) (fun st1 e1 => by
        obtain ⟨st0, e0, e2⟩ := Option.bind_eq_some_iff.mp e1
        exact (quiet_mark (keep_del (h st rfl) e0).1.wf e2).wf) e
      obtain ⟨st0, e0, e2⟩ := Option.bind_eq_some_iff.mp e1
      obtain ⟨k0, -, -, -, hl⟩ := keep_del (h st rfl) e0
      have q2 := quiet_mark k0.wf e2
      refine ⟨st, rfl, (k0.trans q2.keep).trans k1, fun q' hq' s d hp hlk hb => ?_⟩
      simp only [List.head?_cons, Option.mem_def, Option.some.injEq] at hq'
      subst hq'
      rcases k1.mat d hp with e | e
      · exact e
      · rw [e, q2.mat d hp, hl s d hlk hb]

/-- The operations that do not delete matrices. -/
def Silent : Op F D O → Prop
  | .dimension _ _ => False
  | .addSub _ _ _ => False
  | .removeSub _ _ _ _ => False
  | .removeTerm _ _ _ => False
  | .del _ => False
  | _ => True

variable [DecidableEq F] [DecidableEq O]

theorem quiet_step {p : Nat → Bool} {A : Alg F D O M} {c : Cfg} {st st' : St F D O M} {op : Op F D O} (h : Wf p st)
    (hn : (objs op).any p = false) (hs : Silent op) (e : step A c st op = some st') : Quiet p st st' := by
  have hd : ∀ {t d : Nat}, p t = false → p d = true → d ≠ t := by rintro t d ht hd rfl; rw [ht] at hd; cases hd
  cases op with
  | frequency t w =>
    simp only [step] at e
    by_cases ht : (!c.isTerm t) = true
    · rw [if_pos ht] at e; cases e
    · rw [if_neg ht] at e
      by_cases hw : w ≠ st.freq t
      · rw [if_pos hw] at e
        have := quiet_mark (p := p) (by exact h.congr rfl rfl rfl) e
        exact ⟨this.wf, this.bound, this.mat, this.dims⟩
      · rw [if_neg hw] at e; cases e; exact Quiet.refl h
  | operator t os =>
    simp only [objs, List.any_cons, List.any_nil, Bool.or_false] at hn
    simp only [step] at e
    by_cases ht : (!c.isTerm t) = true
    · rw [if_pos ht] at e; cases e
    · rw [if_neg ht] at e
      obtain ⟨st1, e1, rfl⟩ := Option.map_eq_some_iff.mp e
      have k1 : Quiet p st st1 := by
        by_cases hw : some os ≠ st.oper t
        · rw [if_pos hw] at e1
          have := quiet_mark (p := p) (by exact h.congr rfl rfl rfl) e1
          exact ⟨this.wf, this.bound, this.mat, this.dims⟩
        · rw [if_neg hw] at e1; cases e1; exact Quiet.refl h
      by_cases hf : st1.flag t = true
      · rw [if_pos hf]
        exact k1.trans ⟨k1.wf.congr rfl rfl rfl, fun _ _ => id, fun d hp => Function.update_of_ne (hd hn hp) _ _, rfl⟩
      · rw [if_neg hf]; exact k1
  | order t l =>
    simp only [objs, List.any_cons, List.any_nil, Bool.or_false] at hn
    simp only [step] at e
    by_cases ht : (!c.isTerm t) = true
    · rw [if_pos ht] at e; cases e
    · rw [if_neg ht] at e
      obtain ⟨st1, e1, rfl⟩ := Option.map_eq_some_iff.mp e
      have k1 : Quiet p st st1 := by
        by_cases hw : l ≠ st.order t
        · rw [if_pos hw] at e1
          have := quiet_mark (p := p) (by exact h.congr rfl rfl rfl) e1
          exact ⟨this.wf, this.bound, this.mat, this.dims⟩
        · rw [if_neg hw] at e1; cases e1; exact Quiet.refl h
      by_cases hf : st1.flag t = true
      · rw [if_pos hf]
        exact k1.trans ⟨k1.wf.congr rfl rfl rfl, fun _ _ => id, fun d hp => Function.update_of_ne (hd hn hp) _ _, rfl⟩
      · rw [if_neg hf]; exact k1
  | qSystem t qs =>
    simp only [step] at e
    by_cases ht : c.isTerm t = true
    · rw [if_pos ht] at e
      have hb : ∀ a, st.bound a ⊆ (if qs.length = 1 then Function.update st.bound t (st.bound t ++ qs) else st.bound) a := by
        intro a
        by_cases hl : qs.length = 1
        · rw [if_pos hl, Function.update_apply]
          by_cases ea : a = t
          · rw [if_pos ea, ea]; exact List.subset_append_left _ _
          · rw [if_neg ea]; exact fun _ h => h
        · rw [if_neg hl]; exact fun _ h => h
      by_cases hq : qs ≠ st.qsys t
      · rw [if_pos hq] at e
        have := quiet_mark (p := p) (by exact ⟨fun s x hx => hb x (h.sub s x hx), h.ndS, h.ndT⟩) e
        exact ⟨this.wf, fun a b hab => this.bound a b (hb a hab), this.mat, this.dims⟩
      · rw [if_neg hq] at e; cases e
        exact ⟨⟨fun s x hx => hb x (h.sub s x hx), h.ndS, h.ndT⟩, fun a b hab => hb a hab, fun _ _ => rfl, rfl⟩
    · rw [if_neg ht] at e; cases e
  | addTerm s t =>
    simp only [objs, List.any_cons, List.any_nil, Bool.or_false, Bool.or_eq_false_iff] at hn
    simp only [step] at e
    by_cases hk : (c.isTerm t && !c.isTerm s) = true
    · rw [if_pos hk] at e
      obtain ⟨st1, e1, rfl⟩ := Option.map_eq_some_iff.mp e
      have hT : ∀ s' t', t' ∈ Function.update st.terms s (if t ∈ st.terms s then st.terms s else st.terms s ++ [t]) s' → p t' = false := by
        intro s' t' ht'
        by_cases es : s' = s
        · subst es
          rw [Function.update_self] at ht'
          by_cases hx : t ∈ st.terms s'
          · rw [if_pos hx] at ht'; exact h.ndT s' t' ht'
          · rw [if_neg hx, List.mem_append, List.mem_singleton] at ht'
            rcases ht' with ht' | rfl
            · exact h.ndT s' t' ht'
            · exact hn.2
        · rw [Function.update_of_ne es] at ht'; exact h.ndT s' t' ht'
      have k := quiet_mark (p := p) (by exact ⟨h.sub, h.ndS, hT⟩) e1
      have hb : ∀ a, st1.bound a ⊆ Function.update st1.bound t (st1.bound t ++ [s]) a := by
        intro a
        rw [Function.update_apply]
        by_cases ea : a = t
        · rw [if_pos ea, ea]; exact List.subset_append_left _ _
        · rw [if_neg ea]; exact fun _ h => h
      exact ⟨⟨fun s x hx => hb x (k.wf.sub s x hx), k.wf.ndS, k.wf.ndT⟩, fun a b hab => hb a (k.bound a b hab), k.mat, k.dims⟩
    · rw [if_neg hk] at e; cases e
  | resetTerms s =>
    simp only [step, Option.some.injEq] at e
    subst e
    refine ⟨⟨h.sub, h.ndS, fun s' t ht => ?_⟩, fun _ _ => id, fun _ _ => rfl, rfl⟩
    by_cases es : s' = s
    · subst es; simp at ht
    · dsimp only at ht; rw [Function.update_of_ne es] at ht; exact h.ndT s' t ht
  | resetSub s =>
    simp only [step, Option.some.injEq] at e
    subst e
    have hsub : ∀ s' y, y ∈ Function.update st.sub s [] s' → y ∈ st.sub s' := by
      intro s' y hy
      by_cases es : s' = s
      · subst es; simp at hy
      · rwa [Function.update_of_ne es] at hy
    exact ⟨⟨fun s' x hx => h.sub s' x (hsub s' x hx), fun s' x hx => h.ndS s' x (hsub s' x hx), h.ndT⟩, fun _ _ => id, fun _ _ => rfl, rfl⟩
  | total s =>
    simp only [objs, List.any_cons, List.any_nil, Bool.or_false] at hn
    simp only [step] at e
    by_cases ht : c.isTerm s = true
    · rw [if_pos ht] at e; cases e
    · rw [if_neg ht] at e; cases e; exact quiet_total A c.lim s st hn h
  | termTotal t =>
    simp only [objs, List.any_cons, List.any_nil, Bool.or_false] at hn
    simp only [step] at e
    by_cases ht : c.isTerm t = true
    · rw [if_pos ht] at e; cases e; exact quiet_termTotal A h hn
    · rw [if_neg ht] at e; cases e
  | construct t =>
    simp only [objs, List.any_cons, List.any_nil, Bool.or_false] at hn
    simp only [step] at e
    by_cases ht : c.isTerm t = true
    · rw [if_pos ht] at e
      cases hf : freeNow A st t with
      | none => rw [hf] at e; cases e; exact Quiet.refl h
      | some m =>
        rw [hf] at e
        cases e
        exact ⟨h.congr rfl rfl rfl, fun _ _ => id, fun d hp => Function.update_of_ne (hd hn hp) _ _, rfl⟩
    · rw [if_neg ht] at e; cases e
  | unitary q =>
    simp only [objs, List.any_cons, List.any_nil, Bool.or_false] at hn
    simp only [step] at e
    by_cases ht : c.isTerm q = true
    · rw [if_pos ht] at e; cases e
    · rw [if_neg ht] at e; cases e; exact quiet_unitary A c hn h
  | fixed q b =>
    simp only [step, Option.some.injEq] at e
    subst e
    exact ⟨h.congr rfl rfl rfl, fun _ _ => id, fun _ _ => rfl, rfl⟩
  | touch n => exact quiet_mark h e
  | dimension q d => cases hs
  | addSub s x d => cases hs
  | removeSub s x cs d => cases hs
  | removeTerm s t cs => cases hs
  | del n => cases hs

/-- An operation on systems, positions changing only in the structure concerned: a matrix of a dissipator is kept or deleted, and it is
deleted if the position of its system changes or if matrices are deleted starting from a linked system. -/
theorem keep_step {p : Nat → Bool} {A : Alg F D O M} {c : Cfg} {st st' : St F D O M} {op : Op F D O} (h : Wf p st)
    (hn : (objs op).any p = false) (hc : Confined st op) (e : step A c st op = some st') :
    Keep p st st' ∧ ∀ s d, p d = true → d ∈ st.bound s → Deletes st s op → st'.mat d = none := by
  by_cases hs : Silent op
  · refine ⟨(quiet_step h hn hs e).keep, fun s d _ _ hdel => ?_⟩
    cases op <;> first | exact hdel.elim | exact hs.elim
  · cases op with
    | dimension q dm =>
      simp only [step] at e
      obtain ⟨st1, e1, e2⟩ := Option.bind_eq_some_iff.mp e
      obtain ⟨f, -, -, rfl⟩ := mark_eq e1
      obtain ⟨k, ed, -, -, hl⟩ := keep_del (p := p) (by exact h.congr rfl rfl rfl) e2
      refine ⟨⟨k.wf, k.bound, k.mat, fun d s hp hb hne => ?_⟩, fun s d _ hb hdel => hl s d hdel hb⟩
      rw [ed] at hne
      exact hl s d (hc s hne) hb
    | addSub s x dm =>
      simp only [objs, List.any_cons, List.any_nil, Bool.or_false, Bool.or_eq_false_iff] at hn
      simp only [step] at e
      by_cases hk : (c.isTerm s || c.isTerm x) = true
      · rw [if_pos hk] at e; cases e
      · rw [if_neg hk] at e
        obtain ⟨st1, e1, e2⟩ := Option.bind_eq_some_iff.mp e
        obtain ⟨f, -, -, rfl⟩ := mark_eq e1
        have hb : ∀ a, st.bound a ⊆ Function.update st.bound x (st.bound x ++ [s]) a := by
          intro a
          rw [Function.update_apply]
          by_cases ea : a = x
          · rw [if_pos ea, ea]; exact List.subset_append_left _ _
          · rw [if_neg ea]; exact fun _ h => h
        have hsub : ∀ s' y, y ∈ Function.update st.sub s (if x ∈ st.sub s then st.sub s else st.sub s ++ [x]) s' →
            y ∈ st.sub s' ∨ (s' = s ∧ y = x) := by
          intro s' y hy
          by_cases es : s' = s
          · subst es
            rw [Function.update_self] at hy
            by_cases hx : x ∈ st.sub s'
            · rw [if_pos hx] at hy; exact Or.inl hy
            · rw [if_neg hx, List.mem_append, List.mem_singleton] at hy
              rcases hy with hy | hy
              · exact Or.inl hy
              · exact Or.inr ⟨rfl, hy⟩
          · rw [Function.update_of_ne es] at hy; exact Or.inl hy
        have hw : Wf p { inval st f (fun _ => false) with
            sub := Function.update st.sub s (if x ∈ st.sub s then st.sub s else st.sub s ++ [x]),
            bound := Function.update st.bound x (st.bound x ++ [s]), dims := dm } := by
          refine ⟨fun s' y hy => ?_, fun s' y hy => ?_, h.ndT⟩
          · dsimp only at hy ⊢
            rcases hsub s' y hy with hy | ⟨rfl, rfl⟩
            · exact hb y (h.sub s' y hy)
            · simp
          · rcases hsub s' y hy with hy | ⟨rfl, rfl⟩
            · exact h.ndS s' y hy
            · exact hn.2
        obtain ⟨k, ed, -, -, hl⟩ := keep_del hw e2
        refine ⟨⟨k.wf, fun a b hab => k.bound a b (hb a hab), k.mat, fun d s' hp hb' hne => ?_⟩, fun s' d _ hb' hdel => hl s' d hdel (hb s' hb')⟩
        rw [ed] at hne
        exact hl s' d (hc s' hne) (hb s' hb')
    | removeSub s x callers dm =>
      simp only [step] at e
      by_cases hx : x ∈ st.sub s
      · rw [if_pos hx] at e
        obtain ⟨inner, -, e⟩ := Option.bind_eq_some_iff.mp e
        obtain ⟨st1, e1, e⟩ := Option.bind_eq_some_iff.mp e
        obtain ⟨st2, e2, e⟩ := Option.bind_eq_some_iff.mp e
        obtain ⟨k1, ed1, es1, eb1, -⟩ := keep_dropAll (p := p) inner h e1
        have hsub : ∀ s' y, y ∈ Function.update st1.sub s ((st1.sub s).erase x) s' → y ∈ st1.sub s' := by
          intro s' y hy
          by_cases e : s' = s
          · subst e; rw [Function.update_self] at hy; exact List.mem_of_mem_erase hy
          · rwa [Function.update_of_ne e] at hy
        have hw : Wf p { st1 with sub := Function.update st1.sub s ((st1.sub s).erase x), dims := dm } :=
          ⟨fun s' y hy => k1.wf.sub s' y (hsub s' y hy), fun s' y hy => k1.wf.ndS s' y (hsub s' y hy), k1.wf.ndT⟩
        obtain ⟨g, hgx, hg, hgs, -, rfl⟩ := del_eq e2
        have hall : ∀ y, Linked st.sub x y → g y = true := by
          intro y hy
          refine closed_linked ?_ (fun s x hx hgx => hg x hgx s (k1.wf.sub s x (by rw [es1]; exact hx))) hy hgx
          intro a ha b hb
          by_cases ebx : b = x
          · rw [ebx]; exact hgx
          · refine hgs a ha b ?_
            dsimp only
            by_cases e : a = s
            · subst e
              rw [Function.update_self, es1]
              exact (List.mem_erase_of_ne ebx).mpr hb
            · rw [Function.update_of_ne e, es1]; exact hb
        have hnone : ∀ s' d, p d = true → d ∈ st.bound s' → Linked st.sub x s' →
            (inval { st1 with sub := Function.update st1.sub s ((st1.sub s).erase x), dims := dm } (fun _ => false) g).mat d = none := by
          intro s' d _ hb hl
          have : g d = true := hg s' (hall s' hl) d (by dsimp only; rw [eb1]; exact hb)
          simp [inval, this]
        have k2 : Keep p st (inval { st1 with sub := Function.update st1.sub s ((st1.sub s).erase x), dims := dm } (fun _ => false) g) := by
          refine ⟨hw.congr rfl rfl rfl, fun a b hb => by simp only [inval]; rw [eb1]; exact hb, fun d hp => ?_, fun d s' hp hb hne => ?_⟩
          · simp only [inval]
            by_cases hg' : g d = true
            · left; simp [hg']
            · simp only [hg', if_false]
              exact k1.mat d hp
          · exact hnone s' d hp hb (hc s' hne)
        obtain ⟨k3, -⟩ := keep_dropAll _ k2.wf e
        refine ⟨k2.trans k3, fun s' d hp hb hdel => ?_⟩
        rcases k3.mat d hp with e | e
        · exact e
        · rw [e]; exact hnone s' d hp hb hdel
      · rw [if_neg hx] at e; cases e
    | removeTerm s t callers =>
      simp only [step] at e
      have hw : Wf p { st with terms := Function.update st.terms s ((st.terms s).erase t) } := by
        refine ⟨h.sub, h.ndS, fun s' t' ht => ?_⟩
        dsimp only at ht
        by_cases es : s' = s
        · subst es; rw [Function.update_self] at ht; exact h.ndT s' t' (List.mem_of_mem_erase ht)
        · rw [Function.update_of_ne es] at ht; exact h.ndT s' t' ht
      obtain ⟨st0, e0, k, hl⟩ := keep_delMarks (p := p) (s :: callers) (by rintro st0 ⟨⟩; exact hw) e
      cases e0
      exact ⟨⟨k.wf, k.bound, k.mat, k.dims⟩, fun s' d hp hb hdel => hl s (by simp) s' d hp hdel hb⟩
    | del n =>
      obtain ⟨k, -, -, -, hl⟩ := keep_del (p := p) h e
      exact ⟨k, fun s' d _ hb hdel => hl s' d hdel hb⟩
    | _ => exact absurd trivial hs

/-! ## The invariant -/

/-- What holds between any two operations. -/
structure JInv (A : JAlg F D O M J) (c : JCfg) (st : JSt F D O M J) : Prop where
  wf : Wf c.isDiss st.ham
  att : ∀ d s, st.sysOf d = some s → c.isDiss d = true ∧ d ∈ st.ham.bound s
  ok : ∀ d m, c.isDiss d = true → st.ham.mat d = some m → ∃ s j, st.sysOf d = some s ∧ st.jop d = some j ∧ m = A.jump (st.ham.dims s) j

theorem mem_addKey {l : List Nat} {d x : Nat} : x ∈ addKey l d ↔ x ∈ l ∨ x = d := by
  unfold addKey
  by_cases h : d ∈ l
  · rw [if_pos h]
    refine ⟨Or.inl, ?_⟩
    rintro (hx | rfl)
    · exact hx
    · exact h
  · rw [if_neg h]; simp

/-- `refresh` when it does not raise. -/
theorem refresh_eq {A : JAlg F D O M J} {st st' : JSt F D O M J} {d : Nat} (e : refresh A st d = some st') :
    ∃ s j, st.sysOf d = some s ∧ st.jop d = some j ∧ st'.sysOf = st.sysOf ∧ st'.jop = st.jop ∧ st'.protos = st.protos ∧
      st'.ham.sub = st.ham.sub ∧ st'.ham.terms = st.ham.terms ∧ st'.ham.bound = st.ham.bound ∧ st'.ham.dims = st.ham.dims ∧
      st'.ham.mat = Function.update st.ham.mat d (some (A.jump (st.ham.dims s) j)) ∧ st'.ham.flag d = false ∧
      (∀ q, st'.ham.feFlag q = (st.ham.feFlag q || decide (d ∈ st.protos q))) ∧
      ∀ m, st.ham.mat d = some m → A.shapeM m ≠ A.shapeM (A.jump (st.ham.dims s) j) := by
  unfold refresh at e
  cases hs : st.sysOf d with
  | none => rw [hs] at e; cases e
  | some s =>
    cases hj : st.jop d with
    | none => rw [hs, hj] at e; cases e
    | some j =>
      rw [hs, hj] at e
      dsimp only at e
      by_cases hm : ((st.ham.mat d).any fun m0 => A.shapeM m0 == A.shapeM (A.jump (st.ham.dims s) j)) = true
      · rw [if_pos hm] at e; cases e
      · rw [if_neg hm] at e
        cases e
        refine ⟨s, j, rfl, rfl, rfl, rfl, rfl, rfl, rfl, rfl, rfl, rfl, by simp [markDiss], fun q => rfl, fun m hm' hn => ?_⟩
        rw [hm'] at hm
        simp [hn] at hm

theorem JInv.refresh {A : JAlg F D O M J} {c : JCfg} {st st' : JSt F D O M J} {d : Nat}
    (h : JInv A c { st with jop := st.jop, ham := { st.ham with mat := Function.update st.ham.mat d none } })
    (e : refresh A st d = some st') : JInv A c st' := by
  obtain ⟨s, j, hs, hj, e1, e2, -, e4, e5, e6, e7, e8, -, -, -⟩ := refresh_eq e
  refine ⟨h.wf.congr e4 e5 e6, fun d' s' hs' => ?_, fun d' m hd' hm => ?_⟩
  · rw [e1] at hs'; rw [e6]; exact h.att d' s' hs'
  · rw [e1, e2, e7]
    rw [e8] at hm
    by_cases ed : d' = d
    · subst ed
      rw [Function.update_self] at hm
      cases hm
      exact ⟨s, j, hs, hj, rfl⟩
    · rw [Function.update_of_ne ed] at hm
      exact h.ok d' m hd' (by dsimp only; rwa [Function.update_of_ne ed])

theorem JInv.step {A : JAlg F D O M J} {c : JCfg} {st st' : JSt F D O M J} {op : JOp F D O J} (h : JInv A c st) (hc : JCareful st op)
    (e : jstep A c st op = some st') : JInv A c st' := by
  cases op with
  | ham op =>
    simp only [jstep] at e
    by_cases hn : (objs op).any c.isDiss = true
    · rw [if_pos hn] at e; cases e
    · rw [if_neg hn] at e
      obtain ⟨h', e', rfl⟩ := Option.map_eq_some_iff.mp e
      obtain ⟨k, -⟩ := keep_step h.wf (not_true hn) hc e'
      refine ⟨k.wf, fun d s hs => ⟨(h.att d s hs).1, k.bound s d (h.att d s hs).2⟩, fun d m hd hm => ?_⟩
      dsimp only at hm ⊢
      rcases k.mat d hd with e0 | e0
      · rw [e0] at hm; cases hm
      · obtain ⟨s, j, hs, hj, hmj⟩ := h.ok d m hd (by rw [← e0]; exact hm)
        refine ⟨s, j, hs, hj, ?_⟩
        by_cases hdim : h'.dims s = st.ham.dims s
        · rw [hdim]; exact hmj
        · rw [k.dims d s hd (h.att d s hs).2 hdim] at hm; cases hm
  | system d s =>
    simp only [jstep] at e
    by_cases hk : (c.isDiss d && !c.isDiss s && !c.ham.isTerm s) = true
    · rw [if_pos hk] at e
      cases e
      simp only [Bool.and_eq_true, Bool.not_eq_true'] at hk
      have hb : ∀ a b, b ∈ st.ham.bound a → b ∈ Function.update st.ham.bound s (addKey (st.ham.bound s) d) a := by
        intro a b hab
        by_cases ea : a = s
        · subst ea; rw [Function.update_self]; exact mem_addKey.mpr (Or.inl hab)
        · rwa [Function.update_of_ne ea]
      refine ⟨⟨fun s' x hx => hb x s' (h.wf.sub s' x hx), h.wf.ndS, h.wf.ndT⟩, fun d' s' hs' => ?_, fun d' m hd' hm => ?_⟩
      · dsimp only at hs' ⊢
        by_cases ed : d' = d
        · subst ed
          rw [Function.update_self] at hs'
          cases hs'
          rw [Function.update_self]
          exact ⟨hk.1.1, mem_addKey.mpr (Or.inr rfl)⟩
        · rw [Function.update_of_ne ed] at hs'
          exact ⟨(h.att d' s' hs').1, hb s' d' (h.att d' s' hs').2⟩
      · obtain ⟨s', j, hs', hj, hmj⟩ := h.ok d' m hd' hm
        refine ⟨s', j, ?_, hj, hmj⟩
        have ed : d' ≠ d := by rintro rfl; rw [hc] at hs'; cases hs'
        dsimp only
        rw [Function.update_of_ne ed]; exact hs'
    · rw [if_neg hk] at e; cases e
  | addTo d s =>
    simp only [jstep] at e
    by_cases hk : (c.isDiss d && !c.isDiss s && !c.ham.isTerm s) = true
    · rw [if_pos hk] at e; cases e; exact ⟨h.wf, h.att, h.ok⟩
    · rw [if_neg hk] at e; cases e
  | jOper d j =>
    simp only [jstep] at e
    by_cases hk : (!c.isDiss d) = true
    · rw [if_pos hk] at e; cases e
    · rw [if_neg hk] at e
      by_cases hj : ((st.jop d).any fun j0 => A.shapeJ j0 == A.shapeJ j) = true
      · rw [if_pos hj] at e; cases e
      · rw [if_neg hj] at e
        refine JInv.refresh (by
          refine ⟨h.wf.congr rfl rfl rfl, h.att, fun d' m hd' hm => ?_⟩
          dsimp only [markDiss] at hm ⊢
          by_cases ed : d' = d
          · subst ed; rw [Function.update_self] at hm; cases hm
          · rw [Function.update_of_ne ed] at hm
            rw [Function.update_of_ne ed]
            exact h.ok d' m hd' hm) e
  | refresh d =>
    simp only [jstep] at e
    by_cases hk : c.isDiss d = true
    · rw [if_pos hk] at e
      refine JInv.refresh ⟨h.wf.congr rfl rfl rfl, h.att, fun d' m hd' hm => ?_⟩ e
      dsimp only at hm ⊢
      by_cases ed : d' = d
      · subst ed; rw [Function.update_self] at hm; cases hm
      · rw [Function.update_of_ne ed] at hm
        exact h.ok d' m hd' hm
    · rw [if_neg hk] at e; cases e

theorem JInv.runs {A : JAlg F D O M J} {c : JCfg} {st st' : JSt F D O M J} {ops : List (JOp F D O J)} (h : JInv A c st)
    (r : JRuns A c st ops st') : JInv A c st' := by
  induction r with
  | nil => exact h
  | cons hc h1 _ ih => exact ih (h.step hc h1)

omit [DecidableEq F] [DecidableEq O] in
theorem JInv.new (A : JAlg F D O M J) (c : JCfg) (dims : Nat → D) (qsys : Nat → List Nat) (oper : Nat → Option (List O))
    (order : Nat → List Nat) (freq : Nat → Option F) : JInv A c (JSt.new (St.new dims qsys oper order freq) : JSt F D O M J) :=
  ⟨⟨fun _ _ h => by simp [JSt.new, St.new] at h, fun _ _ h => by simp [JSt.new, St.new] at h, fun _ _ h => by simp [JSt.new, St.new] at h⟩,
    fun _ _ h => by simp [JSt.new] at h, fun _ _ _ h => by simp [JSt.new, St.new] at h⟩

/-! ## C78 -/

/-- The system assigned last to the dissipator. -/
def lastSystem (d : Nat) : List (JOp F D O J) → Option Nat
  | [] => none
  | op :: ops => (lastSystem d ops).or (match op with
    | .system d' s => if d' = d then some s else none
    | _ => none)

/-- The operator assigned last to the dissipator. -/
def lastOper (d : Nat) : List (JOp F D O J) → Option J
  | [] => none
  | op :: ops => (lastOper d ops).or (match op with
    | .jOper d' j => if d' = d then some j else none
    | _ => none)

/-- What an operation does to the parameters of the dissipators and to the free evolutions. -/
theorem jstep_params {A : JAlg F D O M J} {c : JCfg} {st st' : JSt F D O M J} {op : JOp F D O J} (e : jstep A c st op = some st') (d s : Nat) :
    st'.sysOf d = (lastSystem d [op]).or (st.sysOf d) ∧ st'.jop d = (lastOper d [op]).or (st.jop d) ∧
    (d ∈ st'.protos s ↔ (op = .system d s ∨ op = .addTo d s) ∨ d ∈ st.protos s) ∧ ((st.protos s).Nodup → (st'.protos s).Nodup) := by
  have hkey : ∀ d' s', (d ∈ Function.update st.protos s' (addKey (st.protos s') d') s ↔ (d = d' ∧ s = s') ∨ d ∈ st.protos s) ∧
      ((st.protos s).Nodup → (Function.update st.protos s' (addKey (st.protos s') d') s).Nodup) := by
    intro d' s'
    by_cases es : s = s'
    · subst es
      rw [Function.update_self, mem_addKey]
      refine ⟨⟨?_, ?_⟩, fun hn => ?_⟩
      · rintro (h | h)
        · exact Or.inr h
        · exact Or.inl ⟨h, rfl⟩
      · rintro (⟨h, -⟩ | h)
        · exact Or.inr h
        · exact Or.inl h
      · unfold addKey
        by_cases hd : d' ∈ st.protos s
        · rw [if_pos hd]; exact hn
        · rw [if_neg hd]
          exact List.Nodup.append hn (by simp) (by simpa using hd)
    · rw [Function.update_of_ne es]
      simp [es]
  cases op with
  | ham op =>
    simp only [jstep] at e
    by_cases hn : (objs op).any c.isDiss = true
    · rw [if_pos hn] at e; cases e
    · rw [if_neg hn] at e
      obtain ⟨h', -, rfl⟩ := Option.map_eq_some_iff.mp e
      simp [lastSystem, lastOper]
  | system d' s' =>
    simp only [jstep] at e
    by_cases hk : (c.isDiss d' && !c.isDiss s' && !c.ham.isTerm s') = true
    · rw [if_pos hk] at e
      cases e
      refine ⟨?_, by simp [lastOper], ?_, (hkey d' s').2⟩
      · by_cases ed : d = d'
        · subst ed; simp [lastSystem]
        · simp [lastSystem, ed, Ne.symm ed]
      · rw [(hkey d' s').1]
        simp [eq_comm (a := d), eq_comm (a := s)]
    · rw [if_neg hk] at e; cases e
  | addTo d' s' =>
    simp only [jstep] at e
    by_cases hk : (c.isDiss d' && !c.isDiss s' && !c.ham.isTerm s') = true
    · rw [if_pos hk] at e
      cases e
      refine ⟨by simp [lastSystem], by simp [lastOper], ?_, (hkey d' s').2⟩
      rw [(hkey d' s').1]
      simp [eq_comm (a := d), eq_comm (a := s)]
    · rw [if_neg hk] at e; cases e
  | jOper d' j =>
    simp only [jstep] at e
    by_cases hk : (!c.isDiss d') = true
    · rw [if_pos hk] at e; cases e
    · rw [if_neg hk] at e
      by_cases hj : ((st.jop d').any fun j0 => A.shapeJ j0 == A.shapeJ j) = true
      · rw [if_pos hj] at e; cases e
      · rw [if_neg hj] at e
        obtain ⟨_, _, -, -, e1, e2, e3, -⟩ := refresh_eq e
        rw [e1, e2, e3]
        refine ⟨by simp [lastSystem, markDiss], ?_, by simp [markDiss], id⟩
        by_cases ed : d = d'
        · subst ed; simp [lastOper, markDiss]
        · simp [lastOper, markDiss, ed, Ne.symm ed]
  | refresh d' =>
    simp only [jstep] at e
    by_cases hk : c.isDiss d' = true
    · rw [if_pos hk] at e
      obtain ⟨_, _, -, -, e1, e2, e3, -⟩ := refresh_eq e
      rw [e1, e2, e3]
      simp [lastSystem, lastOper]
    · rw [if_neg hk] at e; cases e

theorem or_shuffle (a b c d e : Prop) : (c ∨ d) ∨ ((a ∨ b) ∨ e) ↔ ((a ∨ c) ∨ (b ∨ d)) ∨ e := by tauto

theorem params_from {A : JAlg F D O M J} {c : JCfg} {st st' : JSt F D O M J} {ops : List (JOp F D O J)} (r : JRuns A c st ops st') (d s : Nat) :
    st'.sysOf d = (lastSystem d ops).or (st.sysOf d) ∧ st'.jop d = (lastOper d ops).or (st.jop d) ∧
    (d ∈ st'.protos s ↔ (.system d s ∈ ops ∨ .addTo d s ∈ ops) ∨ d ∈ st.protos s) ∧ ((st.protos s).Nodup → (st'.protos s).Nodup) := by
  induction r with
  | nil => simp [lastSystem, lastOper]
  | @cons st st1 st2 op ops hc h1 _ ih =>
    obtain ⟨a1, a2, a3, a4⟩ := jstep_params h1 d s
    obtain ⟨b1, b2, b3, b4⟩ := ih
    refine ⟨?_, ?_, ?_, fun h => b4 (a4 h)⟩
    · rw [b1, a1]; simp [lastSystem, Option.or_assoc]
    · rw [b2, a2]; simp [lastOper, Option.or_assoc]
    · rw [b3, a3]
      simp only [List.mem_cons, eq_comm (a := op)]
      exact or_shuffle _ _ _ _ _

/-- C78: whatever the history of systems, terms and dissipators, if positions change only in the structure concerned and every dissipator
gets its system once, the jump matrix of a dissipator, if there is one, is the operator assigned last, embedded at the present position of the
system of the dissipator.
Missing: there need not be a matrix (`C78_lost`), and the claim is false if the system is assigned again (`C78_moved`). -/
theorem C78_current_partial (A : JAlg F D O M J) (c : JCfg) (dims : Nat → D) (qsys : Nat → List Nat) (oper : Nat → Option (List O))
    (order : Nat → List Nat) (freq : Nat → Option F) {ops : List (JOp F D O J)} {st : JSt F D O M J}
    (r : JRuns A c (JSt.new (St.new dims qsys oper order freq)) ops st) {d : Nat} {m : M} (hd : c.isDiss d = true)
    (hm : st.ham.mat d = some m) : ∃ s j, lastSystem d ops = some s ∧ lastOper d ops = some j ∧ m = A.jump (st.ham.dims s) j := by
  obtain ⟨s, j, hs, hj, e⟩ := ((JInv.new A c dims qsys oper order freq).runs r).ok d m hd hm
  obtain ⟨h1, h2, -⟩ := params_from r d s
  rw [h1] at hs
  rw [h2] at hj
  exact ⟨s, j, by simpa [JSt.new] using hs, by simpa [JSt.new] using hj, e⟩

/-- C78: an accepted `jOper` or `jOperMatrix = None` gives the matrix for the present position, and the free evolutions with the dissipator
compute their propagators again. -/
theorem C78_assigned (A : JAlg F D O M J) (c : JCfg) {st st' : JSt F D O M J} {d : Nat} {op : JOp F D O J}
    (ho : (∃ j, op = .jOper d j) ∨ op = .refresh d) (e : jstep A c st op = some st') :
    ∃ s j, st'.sysOf d = some s ∧ st'.jop d = some j ∧ st'.ham.mat d = some (A.jump (st'.ham.dims s) j) ∧ st'.ham.flag d = false ∧
      (∀ j', op = .jOper d j' → j = j') ∧ (∀ q, d ∈ st'.protos q → st'.ham.feFlag q = true) ∧
      ∀ d', d' ≠ d → st'.ham.mat d' = st.ham.mat d' := by
  have key : ∀ st0 : JSt F D O M J, refresh A st0 d = some st' → ∃ s j, st0.sysOf d = some s ∧ st0.jop d = some j ∧
      st'.sysOf d = some s ∧ st'.jop d = some j ∧ st'.ham.mat d = some (A.jump (st'.ham.dims s) j) ∧ st'.ham.flag d = false ∧
      (∀ q, d ∈ st'.protos q → st'.ham.feFlag q = true) ∧ ∀ d', d' ≠ d → st'.ham.mat d' = st0.ham.mat d' := by
    intro st0 e
    obtain ⟨s, j, hs, hj, e1, e2, e3, -, -, -, e7, e8, e9, e10, -⟩ := refresh_eq e
    refine ⟨s, j, hs, hj, by rw [e1, hs], by rw [e2, hj], by rw [e8, e7, Function.update_self], e9, fun q hq => ?_, fun d' hd' => ?_⟩
    · rw [e3] at hq; rw [e10]; simp [hq]
    · rw [e8, Function.update_of_ne hd']
  rcases ho with ⟨j0, rfl⟩ | rfl
  · simp only [jstep] at e
    by_cases hk : (!c.isDiss d) = true
    · rw [if_pos hk] at e; cases e
    · rw [if_neg hk] at e
      by_cases hj : ((st.jop d).any fun j1 => A.shapeJ j1 == A.shapeJ j0) = true
      · rw [if_pos hj] at e; cases e
      · rw [if_neg hj] at e
        obtain ⟨s, j, _, hj', a1, a2, a3, a4, a5, a6⟩ := key _ e
        simp only [markDiss, Function.update_self, Option.some.injEq] at hj'
        refine ⟨s, j, a1, a2, a3, a4, ?_, a5, fun d' hd' => by rw [a6 d' hd']; rfl⟩
        rintro _ ⟨⟩
        exact hj'.symm
  · simp only [jstep] at e
    by_cases hk : c.isDiss d = true
    · rw [if_pos hk] at e
      obtain ⟨s, j, _, _, a1, a2, a3, a4, a5, a6⟩ := key _ e
      exact ⟨s, j, a1, a2, a3, a4, by rintro _ ⟨⟩, a5, a6⟩
    · rw [if_neg hk] at e; cases e

/-- C78: operations that do not delete matrices — parameters of terms, new terms, Hamiltonians and propagators — leave all jump matrices. -/
theorem C78_stays (A : JAlg F D O M J) (c : JCfg) (dims : Nat → D) (qsys : Nat → List Nat) (oper : Nat → Option (List O))
    (order : Nat → List Nat) (freq : Nat → Option F) {ops : List (JOp F D O J)} {st st' : JSt F D O M J}
    (r : JRuns A c (JSt.new (St.new dims qsys oper order freq)) ops st) {op : Op F D O} (ho : Silent op)
    (e : jstep A c st (.ham op) = some st') {d : Nat} (hd : c.isDiss d = true) : st'.ham.mat d = st.ham.mat d := by
  have h := (JInv.new A c dims qsys oper order freq).runs r
  simp only [jstep] at e
  by_cases hn : (objs op).any c.isDiss = true
  · rw [if_pos hn] at e; cases e
  · rw [if_neg hn] at e
    obtain ⟨h', e', rfl⟩ := Option.map_eq_some_iff.mp e
    exact (quiet_step h.wf (not_true hn) ho e').mat d hd

theorem mapM_none {α β : Type} (f : α → Option β) : ∀ (l : List α) (x : α), x ∈ l → f x = none → l.mapM f = none
  | [], _, h, _ => by simp at h
  | y :: l, x, h, e => by
    rw [List.mapM_cons]
    rcases List.mem_cons.mp h with rfl | h
    · rw [e]; rfl
    · cases hy : f y with
      | none => rfl
      | some b =>
        have := mapM_none f l x h e
        simp [this]

/-- A missing matrix stays missing while neither `jOper` nor `jOperMatrix` is assigned. -/
theorem none_stays {A : JAlg F D O M J} {c : JCfg} {st st' : JSt F D O M J} {ops : List (JOp F D O J)} (h : JInv A c st)
    (r : JRuns A c st ops st') {d : Nat} (hd : c.isDiss d = true) (h1 : ∀ j, .jOper d j ∉ ops) (h2 : .refresh d ∉ ops)
    (hm : st.ham.mat d = none) : st'.ham.mat d = none := by
  induction r with
  | nil => exact hm
  | @cons st st1 st2 op ops hc e _ ih =>
    refine ih (h.step hc e) (fun j hj => h1 j (by simp [hj])) (fun hr => h2 (by simp [hr])) ?_
    cases op with
    | ham op =>
      simp only [jstep] at e
      by_cases hn : (objs op).any c.isDiss = true
      · rw [if_pos hn] at e; cases e
      · rw [if_neg hn] at e
        obtain ⟨h', e', rfl⟩ := Option.map_eq_some_iff.mp e
        rcases (keep_step h.wf (not_true hn) hc e').1.mat d hd with e0 | e0
        · exact e0
        · dsimp only; rw [e0]; exact hm
    | system d' s' =>
      simp only [jstep] at e
      by_cases hk : (c.isDiss d' && !c.isDiss s' && !c.ham.isTerm s') = true
      · rw [if_pos hk] at e; cases e; exact hm
      · rw [if_neg hk] at e; cases e
    | addTo d' s' =>
      simp only [jstep] at e
      by_cases hk : (c.isDiss d' && !c.isDiss s' && !c.ham.isTerm s') = true
      · rw [if_pos hk] at e; cases e; exact hm
      · rw [if_neg hk] at e; cases e
    | jOper d' j =>
      have hne : d ≠ d' := by rintro rfl; exact h1 j (by simp)
      obtain ⟨_, _, _, _, _, _, _, _, a6⟩ := C78_assigned A c (Or.inl ⟨j, rfl⟩) e
      rw [a6 d hne]; exact hm
    | refresh d' =>
      have hne : d ≠ d' := by rintro rfl; exact h2 (by simp)
      obtain ⟨_, _, _, _, _, _, _, _, a6⟩ := C78_assigned A c (Or.inr rfl) e
      rw [a6 d hne]; exact hm

/-- C78 fails: after a change of dimension, a new or a removed sub-system, or a removed term, anywhere in the structure of the system of a
dissipator, the jump matrix is gone, and every propagator of a free evolution with the dissipator raises, until `jOper` or `jOperMatrix` is
assigned. -/
theorem C78_lost (A : JAlg F D O M J) (c : JCfg) (dims : Nat → D) (qsys : Nat → List Nat) (oper : Nat → Option (List O))
    (order : Nat → List Nat) (freq : Nat → Option F) {ops ops' : List (JOp F D O J)} {st st' st'' : JSt F D O M J}
    (r : JRuns A c (JSt.new (St.new dims qsys oper order freq)) ops st) {op : Op F D O} {d s : Nat} (hs : lastSystem d ops = some s)
    (hc : Confined st.ham op) (ho : Deletes st.ham s op) (e : jstep A c st (.ham op) = some st') (r' : JRuns A c st' ops' st'')
    (h1 : ∀ j, .jOper d j ∉ ops') (h2 : .refresh d ∉ ops') :
    st''.ham.mat d = none ∧ ∀ q, (.system d q ∈ ops ∨ .addTo d q ∈ ops) → collapse st'' q = none := by
  have h := (JInv.new A c dims qsys oper order freq).runs r
  have hs' : st.sysOf d = some s := by rw [(params_from r d s).1, hs]; rfl
  obtain ⟨hd, hb⟩ := h.att d s hs'
  have hprot : ∀ q, (.system d q ∈ ops ∨ .addTo d q ∈ ops) → d ∈ st''.protos q := by
    intro q hq
    exact (params_from r' d q).2.2.1.mpr (Or.inr ((jstep_params e d q).2.2.1.mpr (Or.inr ((params_from r d q).2.2.1.mpr (Or.inl hq)))))
  have hnone : st'.ham.mat d = none := by
    have e1 := e
    simp only [jstep] at e1
    by_cases hn : (objs op).any c.isDiss = true
    · rw [if_pos hn] at e1; cases e1
    · rw [if_neg hn] at e1
      obtain ⟨h', e', rfl⟩ := Option.map_eq_some_iff.mp e1
      exact (keep_step h.wf (not_true hn) hc e').2 s d hd hb ho
  have := none_stays (h.step (op := .ham op) hc e) r' hd h1 h2 hnone
  exact ⟨this, fun q hq => mapM_none _ _ d (hprot q hq) this⟩

/-- C78: then `jOperMatrix = None` gives the matrix for the new position, while a `jOper` of the same shape raises. -/
theorem C78_repair (A : JAlg F D O M J) (c : JCfg) {st : JSt F D O M J} {d s : Nat} {j : J} (hd : c.isDiss d = true)
    (hs : st.sysOf d = some s) (hj : st.jop d = some j) (hm : st.ham.mat d = none) :
    (∃ st', jstep A c st (.refresh d) = some st' ∧ st'.ham.mat d = some (A.jump (st.ham.dims s) j) ∧ st'.ham.dims = st.ham.dims) ∧
    ∀ j', A.shapeJ j = A.shapeJ j' → jstep A c st (.jOper d j') = none := by
  refine ⟨?_, fun j' hj' => ?_⟩
  · have : jstep A c st (.refresh d) = refresh A st d := by simp [jstep, hd]
    rw [this]
    unfold refresh
    rw [hs, hj]
    dsimp only
    rw [hm]
    exact ⟨_, rfl, by simp [markDiss], rfl⟩
  · simp [jstep, hd, hj, hj']

/-- C78: the dissipators in the free evolution of a system are those that were given the system or were added to it, each of them once; those
of the systems inside it are not among them. -/
theorem C78_members (A : JAlg F D O M J) (c : JCfg) (dims : Nat → D) (qsys : Nat → List Nat) (oper : Nat → Option (List O))
    (order : Nat → List Nat) (freq : Nat → Option F) {ops : List (JOp F D O J)} {st : JSt F D O M J}
    (r : JRuns A c (JSt.new (St.new dims qsys oper order freq)) ops st) (s : Nat) :
    (st.protos s).Nodup ∧ ∀ d, d ∈ st.protos s ↔ (.system d s ∈ ops ∨ .addTo d s ∈ ops) := by
  refine ⟨(params_from r 0 s).2.2.2 (by simp [JSt.new]), fun d => ?_⟩
  rw [(params_from r d s).2.2.1]
  simp [JSt.new]

/-! ## With matrices -/

/-- `compositeOp(jOper, dimB, dimA)` (`environment.py:107-108`); the position is `(_dimsBefore, _dimsAfter)`. -/
def compositeJump (p : ℕ × ℕ) (j : NMat.Mat) : NMat.Mat := (NMat.compositeOp j p.1 p.2).getD (NMat.zeros 0 0)

/-- C78: with matrices, at a position with positive dimensions: the stored jump matrix changes the state of the system of the dissipator by
the jump operator and leaves the states of everything before and after it.
Missing: as in `C78_current_partial`. -/
theorem C78_acts_partial (A : JAlg F (ℕ × ℕ) O NMat.Mat NMat.Mat) (hA : A.jump = compositeJump) (c : JCfg) (dims : Nat → ℕ × ℕ)
    (qsys : Nat → List Nat) (oper : Nat → Option (List O)) (order : Nat → List Nat) (freq : Nat → Option F)
    {ops : List (JOp F (ℕ × ℕ) O NMat.Mat)} {st : JSt F (ℕ × ℕ) O NMat.Mat NMat.Mat}
    (r : JRuns A c (JSt.new (St.new dims qsys oper order freq)) ops st) {d : Nat} {m : NMat.Mat} (hd : c.isDiss d = true)
    (hm : st.ham.mat d = some m) : ∃ s j, lastSystem d ops = some s ∧ lastOper d ops = some j ∧
      ∀ x ψ y : NMat.Mat, x.rows = (st.ham.dims s).1 → 0 < x.rows → y.rows = (st.ham.dims s).2 → 0 < y.rows → j.cols = ψ.rows →
        NMat.Same (NMat.mul m (NMat.kron (NMat.kron x ψ) y)) (NMat.kron (NMat.kron x (NMat.mul j ψ)) y) := by
  obtain ⟨s, j, hs, hj, e⟩ := C78_current_partial A c dims qsys oper order freq r hd hm
  refine ⟨s, j, hs, hj, fun x ψ y hx hx0 hy hy0 hjψ => ?_⟩
  obtain ⟨C, hC, hsame⟩ := NMat.compositeOp_same j (st.ham.dims s).1 (st.ham.dims s).2 (hx ▸ hx0) (hy ▸ hy0)
  have em : m = C := by rw [e, hA, compositeJump, hC]; rfl
  subst em
  have hcols : m.cols = (NMat.kron (NMat.kron x ψ) y).rows := by
    rw [hsame.2.1]
    simp [NMat.kron, NMat.ident, hx, hy, hjψ]
  refine (hsame.mul (NMat.Same.refl _) hcols).trans ?_
  rw [NMat.kron_mul _ _ _ _ (by simp [NMat.kron, NMat.ident, hx, hjψ]) (by simp [NMat.ident, hy]),
    NMat.kron_mul _ _ _ _ (by simp [NMat.ident, hx]) hjψ]
  refine NMat.Same.kron (NMat.Same.kron ?_ (NMat.Same.refl _)) ?_
  · rw [← hx]; exact NMat.mul_ident_left x
  · rw [← hy]; exact NMat.mul_ident_left y

/-! ## Examples -/

/-- Positions `(before, after)`; a jump operator is a name and a size, its matrix the name and what is before and after it. -/
def demoA : JAlg Int (Nat × Nat) Int (Nat × Nat × Nat) (Nat × Nat) where
  zero := (0, 0, 0)
  add := fun a _ => some a
  smul := fun _ m => m
  free := fun _ => some (0, 0, 0)
  jump := fun p j => (p.1, j.1 + 1, p.2)
  shapeJ := fun j => j.2
  shapeM := fun m => m.1 * m.2.1 * m.2.2

/-- Terms are 10, …, 19; dissipators 20, … -/
def demoC : JCfg where
  ham := { lim := 12, isTerm := fun n => decide (10 ≤ n ∧ n < 20) }
  isDiss := fun n => decide (20 ≤ n)

/-- Systems 1 (dimension two) and 2 (dimension three), and 0, the composite. -/
def demoSt : JSt Int (Nat × Nat) Int (Nat × Nat × Nat) (Nat × Nat) :=
  JSt.new (St.new (fun _ => (1, 1)) (fun t => if t = 10 then [1] else []) (fun t => if t = 10 then some [1] else none) (fun _ => [1])
    (fun _ => some 5))

/-- The history without the checks. -/
def execJ (ops : List (JOp Int (Nat × Nat) Int (Nat × Nat))) : Option (JSt Int (Nat × Nat) Int (Nat × Nat × Nat) (Nat × Nat)) :=
  ops.foldl (fun acc op => acc.bind fun st => jstep demoA demoC st op) (some demoSt)

/-- The positions in the composite of 1 and 2. -/
def inComp : Nat → Nat × Nat := fun n => if n = 1 then (1, 3) else if n = 2 then (2, 1) else (1, 1)

/-- The composite, then dissipator 20 of system 1. -/
def buildJ : List (JOp Int (Nat × Nat) Int (Nat × Nat)) :=
  [.ham (.addSub 0 1 demoSt.ham.dims), .ham (.addSub 0 2 inComp), .system 20 1, .jOper 20 (7, 2)]

example : ∃ st, JRuns demoA demoC demoSt buildJ st ∧ st.ham.mat 20 = some (1, 8, 3) ∧ collapse st 1 = some [(1, 8, 3)] := by
  refine ⟨_, JRuns.cons ?_ rfl (JRuns.cons ?_ rfl (JRuns.cons rfl rfl (JRuns.cons trivial rfl (JRuns.nil _)))), rfl, by decide +kernel⟩
  · exact fun y hy => absurd rfl hy
  · intro y hy
    have h1 : Linked (Function.update (Function.update (fun _ => []) 0 [1]) 0 [1, 2]) 0 1 := .single (Or.inl (by simp))
    have h2 : Linked (Function.update (Function.update (fun _ => []) 0 [1]) 0 [1, 2]) 0 2 := .single (Or.inl (by simp))
    by_cases e1 : y = 1
    · subst e1; exact h1
    · by_cases e2 : y = 2
      · subst e2; exact h2
      · exact absurd (by simp [inComp, e1, e2]; rfl) hy

/-- The tutorials make the composite first. Adding the system to a composite afterwards loses the matrix; `jOperMatrix = None` gives the one
for the new position; assigning an operator of the same shape raises. -/
theorem C78_order_witness :
    (execJ [.system 20 1, .jOper 20 (7, 2), .ham (.addSub 0 1 demoSt.ham.dims), .ham (.addSub 0 2 inComp)]).map (fun st =>
      (st.ham.mat 20, collapse st 1)) = some (none, none) ∧
    (execJ [.system 20 1, .jOper 20 (7, 2), .ham (.addSub 0 1 demoSt.ham.dims), .ham (.addSub 0 2 inComp), .refresh 20]).map (fun st =>
      (st.ham.mat 20, collapse st 1)) = some (some (1, 8, 3), some [(1, 8, 3)]) ∧
    (execJ [.system 20 1, .jOper 20 (7, 2), .ham (.addSub 0 1 demoSt.ham.dims), .ham (.addSub 0 2 inComp), .jOper 20 (7, 2)]).isNone := by
  refine ⟨by decide +kernel, by decide +kernel, by decide +kernel⟩

/-- C78 fails: a dissipator moved to another system keeps the matrix for the first one, and stays in its free evolution. -/
theorem C78_moved : (execJ (buildJ ++ [.system 20 2])).map (fun st => (st.sysOf 20, st.ham.mat 20, st.protos 1, st.protos 2)) =
    some (some 2, some (1, 8, 3), [20], [20]) ∧ demoA.jump (inComp 2) (7, 2) = (2, 8, 1) := by
  refine ⟨by decide +kernel, by decide +kernel⟩

/-- C78 fails: the free evolution of the composite has no dissipator although its sub-system has one, until it is added by hand. -/
theorem C78_composite :
    (execJ buildJ).map (fun st => (collapse st 0, collapse st 1)) = some (some [], some [(1, 8, 3)]) ∧
    (execJ (buildJ ++ [.addTo 20 0])).map (fun st => (collapse st 0, collapse st 1)) = some (some [(1, 8, 3)], some [(1, 8, 3)]) := by
  refine ⟨by decide +kernel, by decide +kernel⟩

/-- A mark, a new term and the Hamiltonian leave the matrix, removing the term again does not. -/
example : (execJ (buildJ ++ [.ham (.addTerm 1 10), .ham (.frequency 10 (some 6)), .ham (.total 0)])).map (fun st => st.ham.mat 20) =
    some (some (1, 8, 3)) ∧
    (execJ (buildJ ++ [.ham (.addTerm 1 10), .ham (.removeTerm 1 10 [])])).map (fun st => st.ham.mat 20) = some none := by
  refine ⟨by decide +kernel, by decide +kernel⟩

/-- A change of the dimension of the neighbour: the matrix is gone, and with it all propagators of system 1. -/
example : (execJ (buildJ ++ [.ham (.dimension 2 fun n => if n = 1 then (1, 4) else inComp n)])).map (fun st =>
    (st.ham.mat 20, collapse st 1)) = some (none, none) := by decide +kernel

/-- The jump operator of a system with something of dimension two before and three after it. -/
example : (compositeJump (2, 3) ⟨2, 2, fun i j => if i = 0 ∧ j = 1 then 1 else 0⟩).rows = 12 := by
  simp [compositeJump, NMat.compositeOp, NMat.tensorProd, NMat.kron, NMat.ident]

end Verif.Env.Jump
