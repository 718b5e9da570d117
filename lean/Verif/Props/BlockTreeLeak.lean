import Verif.Props.BlockTreeHandle
/-!
# C78: no block of sons is leaked, and trees must not outlive their mesh
-/

namespace Bembel.Props
open BlockTree BlockCluster Mesh Util BTHandle

namespace BlockLeak
variable {K E C : Type}

theorem updateLP {m m' : Mem K E C} {self : Option Nat} {r : Root} (h : updateLeafPointers m self r = some m') :
    m'.blocks = m.blocks ∧ m'.vars = m.vars := by
  simp only [updateLeafPointers, Option.bind_eq_bind, Option.bind_eq_some_iff] at h
  obtain ⟨_, -, _, -, _, -, h⟩ := h
  cases h
  exact ⟨rfl, rfl⟩

theorem copySons_sub {m : Mem K E C} {g : Option Nat} {s : Mem K E C × Option Nat} (h : copySons m g = some s) :
    s.1.vars = m.vars ∧ ∀ i, s.1.blocks i ≠ none → m.blocks i ≠ none ∨ s.2 = some i := by
  cases g with
  | none =>
    simp only [copySons, Option.some.injEq] at h
    subst h
    exact ⟨rfl, fun i hi => Or.inl hi⟩
  | some g =>
    simp only [copySons, Option.bind_eq_bind, Option.bind_eq_some_iff] at h
    obtain ⟨b, -, _, -, xs, -, h⟩ := h
    cases h
    refine ⟨rfl, fun i hi => ?_⟩
    by_cases hi' : i = (newCells m xs).1.next
    · subst hi'; exact Or.inr rfl
    · left
      simp only [newBlock] at hi
      rw [Function.update_of_ne hi'] at hi
      exact hi

theorem copyLeaf_eq {m : Mem K E C} {c : Option Nat} {s : Mem K E C × Option Nat} (h : copyLeaf m c = some s) :
    s.1.vars = m.vars ∧ s.1.blocks = m.blocks := by
  cases c with
  | none =>
    simp only [copyLeaf, Option.some.injEq] at h
    subst h
    exact ⟨rfl, rfl⟩
  | some c =>
    simp only [copyLeaf, Option.bind_eq_bind, Option.bind_eq_some_iff] at h
    obtain ⟨x, -, h⟩ := h
    cases h
    exact ⟨rfl, rfl⟩

theorem copyRoot_sub {m : Mem K E C} {self : Option Nat} {r : Root} {s : Mem K E C × Root} (h : copyRoot m self r = some s) :
    s.1.vars = m.vars ∧ ∀ i, s.1.blocks i ≠ none → m.blocks i ≠ none ∨ s.2.gen = some i := by
  simp only [copyRoot, Option.bind_eq_bind, Option.bind_eq_some_iff] at h
  obtain ⟨a, h1, b, h2, m', h3, h⟩ := h
  cases h
  obtain ⟨v1, b1⟩ := copySons_sub h1
  obtain ⟨v2, b2⟩ := copyLeaf_eq h2
  obtain ⟨b3, v3⟩ := updateLP h3
  refine ⟨by rw [v3]; exact v2.trans v1, fun i hi => ?_⟩
  rw [b3] at hi
  exact b1 i (by rw [← b2]; exact hi)

theorem freeRoot_sub (m : Mem K E C) (r : Root) : (freeRoot m r).vars = m.vars ∧
    ∀ i, (freeRoot m r).blocks i ≠ none → m.blocks i ≠ none ∧ r.gen ≠ some i := by
  unfold freeRoot
  cases hg : r.gen with
  | none => exact ⟨rfl, fun i hi => ⟨hi, by simp⟩⟩
  | some g =>
    refine ⟨rfl, fun i hi => ?_⟩
    simp only at hi
    by_cases h : i = g
    · subst h; simp at hi
    · rw [Function.update_of_ne h] at hi
      exact ⟨hi, by simp [Ne.symm h]⟩

variable [NormedAddCommGroup E]

theorem initRoot_sub {new : C} {m : Mem K E C} {self : Option Nat} {r : Root} {k deg : Nat} {s : Mem K E C × Root}
    (h : initRoot new m self r k deg = some s) : s.1.vars = m.vars ∧
    ∀ i, s.1.blocks i ≠ none → (m.blocks i ≠ none ∧ r.gen ≠ some i) ∨ s.2.gen = some i := by
  have he : (ensureParameters m r).1.blocks = m.blocks ∧ (ensureParameters m r).1.vars = m.vars ∧ (ensureParameters m r).2.gen = r.gen := by
    unfold ensureParameters
    cases r.params <;> exact ⟨rfl, rfl, rfl⟩
  obtain ⟨e1, e2, e3⟩ := he
  simp only [initRoot, Option.bind_eq_bind, Option.bind_eq_some_iff] at h
  obtain ⟨q, -, p, -, d, -, h⟩ := h
  cases hb : initBlockClusterTree d.t d.B p.eta p.minLevel with
  | stuck => rw [hb] at h; simp at h
  | node c1 c2 rows cols cc nr nc sons =>
    rw [hb] at h
    simp only at h
    split at h
    · simp only [Option.bind_eq_some_iff] at h
      obtain ⟨_, -, m', h3, h⟩ := h
      cases h
      obtain ⟨b3, v3⟩ := updateLP h3
      refine ⟨?_, fun i hi => ?_⟩
      · rw [v3]
        exact (freeRoot_sub _ _).1.trans e2
      · rw [b3] at hi
        simp only [newBlock] at hi ⊢
        by_cases h : i = (newCells (freeRoot (newVec { (ensureParameters m r).1 with
            params := Function.update (ensureParameters m r).1.params q (some { p with bound := some (k, deg) }) }).1
            (ensureParameters m r).2) (List.replicate (blockLeaves nr nc sons).length new)).1.next
        · right; rw [h]
        · left
          rw [Function.update_of_ne h] at hi
          have := (freeRoot_sub _ _).2 i hi
          rw [e3] at this
          refine ⟨?_, this.2⟩
          rw [← e1]
          exact this.1
    · simp only [Option.bind_eq_some_iff] at h
      obtain ⟨m', h3, h⟩ := h
      cases h
      obtain ⟨b3, v3⟩ := updateLP h3
      refine ⟨by rw [v3]; exact e2, fun i hi => ?_⟩
      rw [b3] at hi
      have hi' : m.blocks i ≠ none := by rw [← e1]; exact hi
      by_cases h : r.gen = some i
      · right; exact e3.trans h
      · exact Or.inl ⟨hi', h⟩

/-- Every block is owned by a variable. -/
def Owned (m : Mem K E C) : Prop := ∀ i, m.blocks i ≠ none → ∃ v r, m.vars v = some r ∧ r.gen = some i

/-- Replacing a variable: the blocks are old ones not owned by the old value, or the one owned by the new value. -/
theorem owned_set {m m' : Mem K E C} (hm : Owned m) (v : Nat) (x : Root) (hv : m'.vars = Function.update m.vars v (some x))
    (hb : ∀ i, m'.blocks i ≠ none → (m.blocks i ≠ none ∧ ∀ r, m.vars v = some r → r.gen ≠ some i) ∨ x.gen = some i) : Owned m' := by
  intro i hi
  rcases hb i hi with ⟨h1, h2⟩ | h
  · obtain ⟨u, r, hu, hr⟩ := hm i h1
    have : u ≠ v := by rintro rfl; exact h2 r hu hr
    exact ⟨u, r, by rw [hv, Function.update_of_ne this]; exact hu, hr⟩
  · exact ⟨v, x, by rw [hv]; simp, h⟩

/-- Blocks owned by the variables or by the temporary `x`; assignment to `v`. -/
theorem owned_swap {m m' : Mem K E C} {v : Nat} {x : Root} (hm : ∀ i, m.blocks i ≠ none → (∃ v r, m.vars v = some r ∧ r.gen = some i) ∨ x.gen = some i)
    (h : swapRoot m v x = some m') : Owned m' := by
  simp only [swapRoot, Option.bind_eq_bind, Option.bind_eq_some_iff] at h
  obtain ⟨r, hr, m2, h2, h⟩ := h
  cases h
  obtain ⟨b, vv⟩ := updateLP h2
  intro i hi
  obtain ⟨f1, f2⟩ := (freeRoot_sub m2 r).2 i hi
  rw [(freeRoot_sub m2 r).1, vv]
  rw [b] at f1
  rcases hm i f1 with ⟨u, r', hu, hr'⟩ | h
  · have : u ≠ v := by rintro rfl; rw [hr] at hu; cases hu; exact f2 hr'
    exact ⟨u, r', by simp only; rw [Function.update_of_ne this]; exact hu, hr'⟩
  · exact ⟨v, x, by simp, h⟩

theorem moveRoot_sub {m : Mem K E C} {self : Option Nat} {w : Nat} {s : Mem K E C × Root} (hm : Owned m) (h : moveRoot m self w = some s) :
    (∃ r, m.vars w = some r ∧ s.1.vars = Function.update m.vars w (some { r with gen := none })) ∧
      ∀ i, s.1.blocks i ≠ none → (∃ v r, s.1.vars v = some r ∧ r.gen = some i) ∨ s.2.gen = some i := by
  simp only [moveRoot, Option.bind_eq_bind, Option.bind_eq_some_iff] at h
  obtain ⟨r, hr, m2, h2, h⟩ := h
  cases h
  obtain ⟨b, vv⟩ := updateLP h2
  refine ⟨⟨r, hr, vv⟩, fun i hi => ?_⟩
  rw [b] at hi
  obtain ⟨u, r', hu, hr'⟩ := hm i hi
  by_cases huw : u = w
  · subst huw
    rw [hr] at hu
    cases hu
    exact Or.inr hr'
  · exact Or.inl ⟨u, r', by rw [vv]; simp only; rw [Function.update_of_ne huw]; exact hu, hr'⟩

theorem step_owned {new : C} {m m' : Mem K E C} (hm : Owned m) {op : Op K E C} (h : step new m op = some m') : Owned m' := by
  cases op with
  | meshNew k d =>
    simp only [step] at h
    split at h
    · cases h; exact hm
    · cases h
  | meshFree k =>
    simp only [step] at h
    split at h
    · cases h; exact hm
    · cases h
  | default v =>
    simp only [step] at h
    split at h
    · rename_i hv
      cases h
      exact owned_set hm v _ rfl fun i hi => Or.inl ⟨hi, fun r hr => by rw [hv] at hr; cases hr⟩
    · cases h
  | build v k deg =>
    simp only [step] at h
    split at h
    · rename_i hv
      simp only [Option.bind_eq_bind, Option.bind_eq_some_iff] at h
      obtain ⟨s, h1, h⟩ := h
      cases h
      obtain ⟨v1, b1⟩ := initRoot_sub h1
      refine owned_set hm v s.2 (by simp only [v1]) fun i hi => ?_
      rcases b1 i hi with h | h
      · exact Or.inl ⟨h.1, fun r hr => by rw [hv] at hr; cases hr⟩
      · exact Or.inr h
    · cases h
  | setParams v eta ml =>
    simp only [step, Option.bind_eq_bind, Option.bind_eq_some_iff] at h
    obtain ⟨r, hr, h⟩ := h
    cases h
    refine owned_set hm v (setParameters m r eta ml).2 rfl fun i hi => ?_
    by_cases hg : r.gen = some i
    · exact Or.inr hg
    · exact Or.inl ⟨hi, fun r' hr' => by rw [hr] at hr'; cases hr'; exact hg⟩
  | init v k deg =>
    simp only [step, Option.bind_eq_bind, Option.bind_eq_some_iff] at h
    obtain ⟨r, hr, s, h1, h⟩ := h
    cases h
    obtain ⟨v1, b1⟩ := initRoot_sub h1
    refine owned_set hm v s.2 (by simp only [v1]) fun i hi => ?_
    rcases b1 i hi with h | h
    · exact Or.inl ⟨h.1, fun r' hr' => by rw [hr] at hr'; cases hr'; exact h.2⟩
    · exact Or.inr h
  | copy v w =>
    simp only [step] at h
    split at h
    · rename_i hv
      simp only [Option.bind_eq_bind, Option.bind_eq_some_iff] at h
      obtain ⟨r, hr, s, h1, h⟩ := h
      cases h
      obtain ⟨v1, b1⟩ := copyRoot_sub h1
      refine owned_set hm v s.2 (by simp only [v1]) fun i hi => ?_
      rcases b1 i hi with h | h
      · exact Or.inl ⟨h, fun r hr => by rw [hv] at hr; cases hr⟩
      · exact Or.inr h
    · cases h
  | move v w =>
    simp only [step] at h
    split at h
    · rename_i hv
      simp only [Option.bind_eq_bind, Option.bind_eq_some_iff] at h
      obtain ⟨s, h1, h⟩ := h
      cases h
      obtain ⟨⟨r, hr, v1⟩, b1⟩ := moveRoot_sub hm h1
      intro i hi
      rcases b1 i hi with ⟨u, r', hu, hr'⟩ | h
      · have : u ≠ v := by
          rintro rfl
          have hne : u ≠ w := by rintro rfl; rw [hv] at hr; cases hr
          rw [v1, Function.update_of_ne hne, hv] at hu
          cases hu
        exact ⟨u, r', by simp only; rw [Function.update_of_ne this]; exact hu, hr'⟩
      · exact ⟨v, s.2, by simp, h⟩
    · cases h
  | assign v w =>
    simp only [step, Option.bind_eq_bind, Option.bind_eq_some_iff] at h
    obtain ⟨r, hr, s, h1, h⟩ := h
    obtain ⟨v1, b1⟩ := copyRoot_sub h1
    refine owned_swap (fun i hi => ?_) h
    rcases b1 i hi with h | h
    · rw [v1]; exact Or.inl (hm i h)
    · exact Or.inr h
  | moveAssign v w =>
    simp only [step, Option.bind_eq_bind, Option.bind_eq_some_iff] at h
    obtain ⟨s, h1, h⟩ := h
    exact owned_swap (moveRoot_sub hm h1).2 h
  | write v i x =>
    simp only [step, writeLeaf, Option.bind_eq_bind, Option.bind_eq_some_iff] at h
    obtain ⟨_, -, _, -, _, -, _, -, _, -, _, -, h⟩ := h
    cases h
    exact hm
  | destroy v =>
    simp only [step, Option.bind_eq_bind, Option.bind_eq_some_iff] at h
    obtain ⟨r, hr, h⟩ := h
    cases h
    intro i hi
    obtain ⟨f1, f2⟩ := (freeRoot_sub m r).2 i hi
    obtain ⟨u, r', hu, hr'⟩ := hm i f1
    have : u ≠ v := by rintro rfl; rw [hr] at hu; cases hu; exact f2 hr'
    exact ⟨u, r', by simp only; rw [Function.update_of_ne this]; exact hu, hr'⟩

end BlockLeak

variable {K E C : Type} [NormedAddCommGroup E]

/-- C78: nothing leaks.  For every history of operations, defined for values or not: every array of sons in memory belongs to a variable, so
when all variables are gone, no array of sons is left. -/
theorem C78_no_leak (new : C) (ops : List (Op K E C)) (m : Mem K E C) (h : run new .empty ops = some m) :
    (∀ i, m.blocks i ≠ none → ∃ v r, m.vars v = some r ∧ r.gen = some i) ∧
      ((∀ v, m.vars v = none) → ∀ i, m.blocks i = none) := by
  have key : ∀ (ops : List (Op K E C)) (m m' : Mem K E C), BlockLeak.Owned m → run new m ops = some m' → BlockLeak.Owned m' := by
    intro ops
    induction ops with
    | nil => intro m m' hm h; simp only [run, List.foldlM_nil] at h; cases h; exact hm
    | cons op ops ih =>
      intro m m' hm h
      simp only [run, List.foldlM_cons, Option.bind_eq_bind, Option.bind_eq_some_iff] at h
      obtain ⟨m1, h1, h2⟩ := h
      exact ih m1 m' (BlockLeak.step_owned hm h1) h2
  have hm := key ops _ m (fun i hi => absurd rfl hi) h
  refine ⟨hm, fun hv i => ?_⟩
  by_contra hi
  obtain ⟨v, r, h1, -⟩ := hm i hi
  rw [hv] at h1
  cases h1

/-- The hypothesis is met, e.g. by the histories of `C78_component_trees`. -/
example (new : C) (d : MeshData K E) (deg : Nat) : ∃ m, run new .empty [.meshNew 0 d, .build 0 0 deg, .destroy 0] = some m ∧ ∀ i, m.blocks i = none := by
  obtain ⟨m, ps, a, h1, h2, h3, h4⟩ := built new d deg
  obtain ⟨r, hr, hvr⟩ := rel_some h2 (v := 0) (by rw [h4]; rfl)
  have h : run new .empty [.meshNew 0 d, .build 0 0 deg, .destroy 0] = some { freeRoot m r with vars := Function.update m.vars 0 none } := by
    rw [show ([.meshNew 0 d, .build 0 0 deg, .destroy 0] : List (Op K E C)) = [.meshNew 0 d, .build 0 0 deg] ++ [.destroy 0] from rfl, run_append,
      h1, Option.bind_some]
    simp only [run, List.foldlM_cons, List.foldlM_nil, step, hr, Option.bind_eq_bind, Option.bind_some]
    rfl
  refine ⟨_, h, fun i => ?_⟩
  by_contra hi
  obtain ⟨v, r', g1, -⟩ := (C78_no_leak new _ _ h).1 i hi
  by_cases hv : v = 0
  · subst hv; simp at g1
  · simp only at g1
    rw [Function.update_of_ne hv] at g1
    have : a.vars v = none := by rw [h4, Function.update_of_ne hv]
    exact absurd g1 (by rw [rel_none h2 this]; simp)

/-- C78: trees must not outlive their mesh: a tree keeps pointers to clusters, and its copy constructor looks at them. -/
theorem C78_mesh_lifetime_violated (new : C) (d : MeshData K E) (deg : Nat) (hM : 0 < d.t.maxLevel) :
    run new .empty [.meshNew 0 d, .build 0 0 deg, .meshFree 0, .copy 1 0] = none := by
  obtain ⟨m, ps, a, h1, h2, h3, h4⟩ := built new d deg
  obtain ⟨m1, ps1, h5, h6⟩ := step_rel new h2 (.meshFree 0)
    (a' := { a with meshes := Function.update a.meshes 0 (some (d, false)) }) (by simp [Spec.BlockTree.step, h3])
  obtain ⟨r, hr, hvr⟩ := rel_some h6 (v := 0) (by change a.vars 0 = _; rw [h4]; rfl)
  obtain ⟨s1, -⟩ := hvr.tree _ _ _ rfl
  obtain ⟨sons, hroot⟩ := init_root d hM
  obtain ⟨cc, nr, nc, sons', e1, e2, e3, -⟩ := s1.node
  rw [hroot] at e1
  simp only [BTree.node.injEq] at e1
  obtain ⟨-, -, -, -, rfl, rfl, rfl, -⟩ := e1
  obtain ⟨-, -, g, e4, e5⟩ := e3 rfl
  rw [show ([.meshNew 0 d, .build 0 0 deg, .meshFree 0, .copy 1 0] : List (Op K E C)) =
    [.meshNew 0 d, .build 0 0 deg] ++ [.meshFree 0, .copy 1 0] from rfl, run_append, h1, Option.bind_some]
  simp only [run, List.foldlM_cons, List.foldlM_nil, h5, Option.bind_eq_bind, Option.bind_some]
  have hm0 : m1.meshes 0 = some (d, false) := by rw [h6.meshes]; simp
  have hc : copySons m1 r.gen = none := by
    rw [e4]
    simp only [copySons, e5, meshAlive, hm0, Option.bind_eq_bind, Option.bind_some]
    simp
  simp only [step, hr, copyRoot, hc, Option.bind_eq_bind, Option.bind_some, Option.bind_none]
  split <;> rfl

end Bembel.Props
