import Verif.TimeDep.Props
import Verif.Bound.Props
import Verif.Tree.Hermitian

/-!
# C73: which simulation gives the time, and which functions are called
-/
namespace Verif.TimeDep
open Verif.Bound

section
variable {V : Type} [DecidableEq V]

/-! ### Bounds -/

omit [DecidableEq V] in
theorem breakTime_tb (h : Heap V) {c s : Nat} (hs : s ≠ c) : (breakTime h c).tb s = h.tb s := by
  unfold breakTime
  split
  · rfl
  · simp [hs]

theorem setAttrParam_tb {lim : Nat} {h h' : Heap V} {c s : Nat} {k : Key} {v : Option V} (e : setAttrParam lim h c k v = some h')
    (hs : s ≠ c) : h'.tb s = h.tb s := by
  unfold setAttrParam at e
  split at e
  · simp at e
  · simp only [Option.some.injEq] at e
    subst e
    split
    · exact breakTime_tb h hs
    · exact breakTime_tb h hs

omit [DecidableEq V] in
theorem copyFromBound_tb (h : Heap V) (c s : Nat) (k : Key) : (copyFromBound h c k).tb s = h.tb s := by
  unfold copyFromBound
  split <;> rfl

theorem setProp_tb (A : Arith V) {lim : Nat} {h h' : Heap V} {c s : Nat} {k : Key} {v : V} (e : setProp A lim h c k v = some h')
    (hs : s ≠ c) : h'.tb s = h.tb s := by
  have three : ∀ {kk k1 k2 : Key} {f : V → Option V},
      (match setAttrParam lim (copyFromBound h c kk) c k1 (some v) with
        | none => none
        | some h => match readF h lim c kk with
          | none => none
          | some none => some h
          | some (some x) => (f x).map fun n => setValue h c k2 (some n)) = some h' → h'.tb s = h.tb s := by
    intro kk k1 k2 f e
    split at e
    · simp at e
    rename_i h1 e1
    have t1 : h1.tb s = h.tb s := (setAttrParam_tb e1 hs).trans (copyFromBound_tb h c s kk)
    split at e
    · simp at e
    · simp only [Option.some.injEq] at e; subst e; exact t1
    · simp only [Option.map_eq_some_iff] at e
      obtain ⟨n, -, rfl⟩ := e
      exact t1
  cases k with
  | step => exact three e
  | total => exact three e
  | count => exact three e
  | samples => exact setAttrParam_tb e hs
  | delStates => simp only [setProp, Option.some.injEq] at e; subst e; rfl
  | stateInput => simp only [setProp, Option.some.injEq] at e; subst e; rfl

theorem bindKey_tb (A : Arith V) {lim c o s : Nat} {h h' : Heap V} {b b' : Bool} {k : Key} (e : bindKey A lim c o h b k = some (h', b'))
    (hs : s ≠ c) : h'.tb s = h.tb s := by
  unfold bindKey at e
  split at e
  · dsimp only at e
    split at e
    · simp at e
    rename_i h1 e1
    have t1 : h1.tb s = h.tb s := by
      split at e1
      · simp only [Option.some.injEq] at e1; subst e1; rfl
      · split at e1
        · exact setProp_tb A e1 hs
        · simp at e1
    split at e
    · split at e
      · simp only [Option.some.injEq, Prod.mk.injEq] at e; obtain ⟨rfl, -⟩ := e; exact t1
      · split at e
        · simp only [Option.map_eq_some_iff, Prod.mk.injEq] at e
          obtain ⟨h2, e2, rfl, -⟩ := e
          exact (setProp_tb A e2 hs).trans t1
        · simp only [Option.some.injEq, Prod.mk.injEq] at e; obtain ⟨rfl, -⟩ := e; exact t1
    · simp only [Option.some.injEq, Prod.mk.injEq] at e; obtain ⟨rfl, -⟩ := e; exact t1
  · simp only [Option.some.injEq, Prod.mk.injEq] at e; obtain ⟨rfl, -⟩ := e; rfl

/-- A statement changes the bound of its own simulation only. -/
theorem exec_tb (A : Arith V) {lim : Nat} {x : Cmd V} {h h' : Heap V} (e : exec A lim x h = some h') {s : Nat} (hs : x.sim ≠ s) :
    h'.tb s = h.tb s := by
  cases x with
  | set c k v => exact setProp_tb A e (Ne.symm hs)
  | readCount c =>
    simp only [exec, Option.map_eq_some_iff] at e
    obtain ⟨⟨m, h1⟩, e1, rfl⟩ := e
    unfold getCount at e1
    split at e1
    · simp at e1
    · simp only [Option.map_eq_some_iff, Prod.mk.injEq] at e1
      obtain ⟨n, -, -, rfl⟩ := e1
      rfl
    · simp only [Option.map_eq_some_iff, Prod.mk.injEq] at e1
      obtain ⟨n, -, -, rfl⟩ := e1
      rfl
    · simp at e1
  | bind c o re =>
    have hs : s ≠ c := Ne.symm hs
    simp only [exec, Bound.bind] at e
    split at e
    · simp at e
    split at e
    · simp only [Option.some.injEq] at e; subst e; rfl
    · split at e
      · simp at e
      rename_i h1 b1 e1
      split at e
      · simp at e
      rename_i h2 b2 e2
      split at e
      · simp at e
      rename_i h3 b3 e3
      simp only [Option.some.injEq] at e
      subst e
      rw [(foldl_rebind_frame c o re _ h3).2.1, bindKey_tb A e3 hs, bindKey_tb A e2 hs, bindKey_tb A e1 hs]
      simp [hs]

theorem run_tb (A : Arith V) {lim : Nat} {s : Nat} : ∀ (l : List (Cmd V)) {h h' : Heap V}, run A lim l h = some h' →
    (∀ x ∈ l, x.sim ≠ s) → h'.tb s = h.tb s
  | [], h, h', e, _ => by simp only [run, Option.some.injEq] at e; subst e; rfl
  | x :: l, h, h', e, hs => by
    unfold run at e
    split at e
    · simp at e
    rename_i h1 e1
    rw [run_tb A l e fun y hy => hs y (by simp [hy]), exec_tb A e1 (hs x (by simp))]

/-- A simulation that is bound to another one, and on which nothing was assigned, takes its current time from it, whatever is done to the
other simulations and whichever of them is running. -/
theorem C73_follows_partial (A : Arith V) (clk : Clock V) {rank : Nat → Nat} {lim c p : Nat} (one dflt : V) (l1 l2 : List (Cmd V))
    {h : Heap V} (d1 : ∀ x ∈ l1, x.Down rank) (d : rank p < rank c) (hl : rank c < lim)
    (w1 : ∀ x ∈ l1, x.sim ≠ c) (w2 : ∀ x ∈ l2, x.sim ≠ c) (e : run A lim (l1 ++ .bind c p false :: l2) (fresh one dflt) = some h)
    (index : Nat → Int) (n : Nat) : currentTime clk h index (n + 1) c = currentTime clk h index n p := by
  obtain ⟨h1, h2, e1, e2, e3⟩ := run_split A e
  have H1 := (Hier.fresh rank one dflt).run A l1 d1 e1
  have un : ∀ k, h1.bnd c k = .none := fun k' =>
    (run_frame A l1 e1 c k' fun x hx w => w1 x hx (Cmd.sim_of_writes w).symm).1
  have t2 : h2.tb c = some p := by
    rcases bind_spec A e2 with ⟨tree, ht, hm, rfl⟩ | ⟨h0, h3, b1, b2, b3, m, b4, rfl⟩
    · obtain ⟨tr, e', hr⟩ := boundTree_some H1 lim p (by omega)
      rw [ht] at e'
      simp only [Option.some.injEq] at e'
      have := hr c (e' ▸ hm)
      omega
    · rw [(foldl_rebind_frame c p false _ h3).2.1, b4 (fun k => by rw [un k]; simp), b3]
      simp
  have t3 := run_tb A l2 e3 w2
  rw [currentTime, t3, t2]

/-- Numbers as times. -/
def natClock : Clock Nat := ⟨fun v n => v * n.toNat, 0⟩

/-- A protocol (2) of a system (1) in a simulation (0): at step 3 with step size 5. -/
example (h : Heap Nat) (e : run natA 100 ([.bind 2 1 false] ++ .bind 1 0 false :: [.set 0 .step 2, .set 0 .total 10, .set 0 .step 5]) (fresh 1 0) = some h)
    (index : Nat → Int) : currentTime natClock h index 99 1 = currentTime natClock h index 98 0 :=
  C73_follows_partial natA natClock (rank := id) 1 0 _ _ (by simp [Cmd.Down]) (by decide) (by decide) (by simp [Cmd.sim]) (by simp [Cmd.sim]) e _ _
example : (run natA 100 ([.bind 2 1 false] ++ .bind 1 0 false :: [.set 0 .step 2, .set 0 .total 10, .set 0 .step 5]) (fresh 1 0)).map
    (fun h => currentTime natClock h (fun s => if s = 0 then 3 else -1) 99 2) = some 20 := by decide

/-- C73 is false: a system that is added to a second simulation takes its time from the second one; while the first one is at step 3 the system
is at time 0. -/
theorem C73_second_simulation :
    (run natA 100 [.set 0 .step 2, .bind 1 0 false, .set 2 .step 3, .bind 1 2 false] (fresh 1 0)).map
      (fun h => (read 100 h 1 .step, currentTime natClock h (fun s => if s = 0 then 3 else -1) 100 0,
        currentTime natClock h (fun s => if s = 0 then 3 else -1) 100 1)) = some (some (some 2), 8, 0) := by decide

/-- C73 is false: with a step size of its own, given before or after it was added to the simulation, the time of a system stands still. -/
theorem C73_own_step_size :
    (run natA 100 [.set 1 .step 5, .set 0 .step 2, .bind 1 0 false] (fresh 1 0)).map
      (fun h => currentTime natClock h (fun s => if s = 0 then 3 else -1) 100 1) = some 0 ∧
    (run natA 100 [.set 0 .step 2, .bind 1 0 false, .set 1 .step 5] (fresh 1 0)).map
      (fun h => currentTime natClock h (fun s => if s = 0 then 3 else -1) 100 1) = some 0 ∧
    (run natA 100 [.set 0 .step 2, .bind 1 0 false] (fresh 1 0)).map
      (fun h => currentTime natClock h (fun s => if s = 0 then 3 else -1) 100 1) = some 8 := by decide

end

/-! ### Functions of a composite system -/

variable {P V : Type}

mutual
theorem visit_eq (F : List Nat → List (TimeFn P V)) : ∀ (s : Tree.Sys) (p : List Nat), visit F p s = (Tree.paths p s).flatMap F
  | .node _ _ _ _ s, p => by
    rw [visit, Tree.paths, visitSubs_eq F s p 0, List.flatMap_append, List.flatMap_singleton]
theorem visitSubs_eq (F : List Nat → List (TimeFn P V)) : ∀ (l : List Tree.Sys) (p : List Nat) (i : Nat),
    visitSubs F p i l = (Tree.pathsL p i l).flatMap F
  | [], _, _ => rfl
  | q :: r, p, i => by
    rw [visitSubs, Tree.pathsL, visit_eq F q (p ++ [i]), visitSubs_eq F r p (i + 1), List.flatMap_append]
end

/-- `_timeDependency()` of a composite system calls the functions of exactly the systems whose terms make up its Hamiltonian (`Tree.hamil`),
those of each system once. -/
theorem C73_visit (F : List Nat → List (TimeFn P V)) (root : Tree.Sys) : visit F [] root = (Tree.paths [] root).flatMap F :=
  visit_eq F root []

/-- Two qubits (paths 0 and 1) with a coupling (path empty). -/
example (f g h : TimeFn P V) : visit (fun p => if p = [0] then [f] else if p = [1] then [g] else [h]) [] Tree.pair = [f, g, h] := rfl

end Verif.TimeDep
