import Verif.Spec.GeometryHandle
/-!
# Property theorems C77: copies of geometries and ansatz spaces are independent

Reference point: `Spec/GeometryHandle`.
-/

namespace Bembel.Props.GeoHandle
open Bembel.Handle

variable {P : Type}

/-- Member `geometry_` against value. -/
def GeoRel (m : Mem P) : Option (Option Nat) → Option (Option (P × Bool)) → Prop
  | none, none => True
  | some none, some none => True
  | some (some c), some (some (x, b)) => c < m.next ∧ m.cells c = some x ∧ (b = false → ∀ k o, m.meshes k = some o → o.geo ≠ c)
  | _, _ => False

/-- Memory against values. -/
structure Rel (m : Mem P) (a : Spec.Handle.Vals P) : Prop where
  geo : ∀ v, GeoRel m (m.geo v) (a.geo v)
  inj : ∀ v w c, m.geo v = some (some c) → m.geo w = some (some c) → v = w
  space : ∀ s, (m.space s = none ↔ a.space s = none) ∧ ∀ x, a.space s = some x → readSpace m s = some x
  mesh : ∀ k o, m.meshes k = some o → k < m.next ∧ o.geo < m.next

theorem GeoRel.mono {m m' : Mem P} {p q} (h : GeoRel m p q) (hn : m.next ≤ m'.next)
    (hc : ∀ c, c < m.next → m'.cells c = m.cells c) (hm : ∀ k o, m'.meshes k = some o → m.meshes k = some o) : GeoRel m' p q := by
  match p, q, h with
  | none, none, _ => trivial
  | some none, some none, _ => trivial
  | some (some c), some (some (x, b)), h =>
    exact ⟨Nat.lt_of_lt_of_le h.1 hn, by rw [hc c h.1]; exact h.2.1, fun hb k o ho => h.2.2 hb k o (hm k o ho)⟩

/-- A variable that does not appear in a list of updates. -/
theorem upd_ne {β : Type} (f : Nat → β) (v w : Nat) (x : β) (h : w ≠ v) : Function.update f v x w = f w := Function.update_of_ne h _ _

theorem readSpace_congr (m m' : Mem P) (s : Nat) (hs : m'.space s = m.space s) (hk : ∀ k o, m.meshes k = some o → m'.meshes k = some o)
    (hc : ∀ k o, m.meshes k = some o → m'.cells o.geo = m.cells o.geo) (x) (h : readSpace m s = some x) : readSpace m' s = some x := by
  simp only [readSpace, Option.bind_eq_bind, Option.bind_eq_some_iff] at h ⊢
  obtain ⟨y, h1, k, h2, g, h3, h4⟩ := h
  exact ⟨y, by rw [hs, h1], k, hk _ _ h2, g, by rw [hc _ _ h2, h3], h4⟩

theorem rel_newCell {m : Mem P} {a} (h : Rel m a) (x : P) (v : Nat) :
    Rel (setGeo (newCell m x).1 v (some m.next)) { a with geo := Function.update a.geo v (some (some (x, false))) } := by
  refine ⟨fun w => ?_, fun w w' c hw hw' => ?_, fun s => ⟨(h.space s).1, fun y hy => ?_⟩, fun k o ho => ?_⟩
  · by_cases e : w = v
    · subst e
      simp only [setGeo, newCell, Function.update_self]
      refine ⟨Nat.lt_succ_self _, by simp, fun _ k o ho hh => ?_⟩
      have := (h.mesh k o ho).2
      omega
    · simp only [setGeo, newCell, upd_ne _ _ _ _ e]
      exact (h.geo w).mono (Nat.le_succ _) (fun c hc => Function.update_of_ne (Nat.ne_of_lt hc) _ _) fun k o ho => ho
  · have key : ∀ u, u ≠ v → Function.update m.geo v (some (some m.next)) u = some (some m.next) → False := by
      intro u hu hh
      rw [upd_ne _ _ _ _ hu] at hh
      have := h.geo u
      rw [hh] at this
      match a.geo u, this with
      | some (some (_, _)), h' => exact Nat.lt_irrefl _ h'.1
    simp only [setGeo, newCell] at hw hw'
    by_cases e : w = v <;> by_cases e' : w' = v
    · rw [e, e']
    · subst e
      rw [Function.update_self] at hw
      cases hw
      exact (key w' e' hw').elim
    · subst e'
      rw [Function.update_self] at hw'
      cases hw'
      exact (key w e hw).elim
    · rw [upd_ne _ _ _ _ e] at hw
      rw [upd_ne _ _ _ _ e'] at hw'
      exact h.inj w w' c hw hw'
  · exact readSpace_congr m (setGeo (newCell m x).1 v (some m.next)) s rfl (fun _ _ hk => hk)
      (fun k o ho => Function.update_of_ne (Nat.ne_of_lt (h.mesh k o ho).2) _ _) y ((h.space s).2 y hy)
  · exact ⟨Nat.lt_succ_of_lt (h.mesh k o ho).1, Nat.lt_succ_of_lt (h.mesh k o ho).2⟩

/-- Changing only the geometry variables. -/
theorem rel_geo {m : Mem P} {a : Spec.Handle.Vals P} (h : Rel m a) (g' : Nat → Option (Option Nat)) (b' : Nat → Option (Option (P × Bool)))
    (hg : ∀ v, GeoRel m (g' v) (b' v)) (hi : ∀ v w c, g' v = some (some c) → g' w = some (some c) → v = w) :
    Rel { m with geo := g' } { a with geo := b' } :=
  ⟨fun v => (hg v).mono (Nat.le_refl _) (fun _ _ => rfl) fun _ _ h => h, hi, fun s => ⟨(h.space s).1, fun x hx => (h.space s).2 x hx⟩, h.mesh⟩

theorem rel_move {m : Mem P} {a} (h : Rel m a) (v w : Nat) :
    Rel { m with geo := Function.update (Function.update m.geo w (some none)) v (m.geo w) }
      { a with geo := Function.update (Function.update a.geo w (some none)) v (a.geo w) } := by
  refine rel_geo h _ _ (fun u => ?_) fun u u' c hu hu' => ?_
  · by_cases e : u = v
    · subst e
      rw [Function.update_self, Function.update_self]
      exact h.geo w
    · rw [upd_ne _ _ _ _ e, upd_ne _ _ _ _ e]
      by_cases e' : u = w
      · subst e'
        rw [Function.update_self, Function.update_self]
        trivial
      · rw [upd_ne _ _ _ _ e', upd_ne _ _ _ _ e']
        exact h.geo u
  · by_cases e : u = v <;> by_cases e' : u' = v
    · rw [e, e']
    · subst e
      rw [Function.update_self] at hu
      rw [upd_ne _ _ _ _ e'] at hu'
      by_cases ew : u' = w
      · subst ew; rw [Function.update_self] at hu'; cases hu'
      · rw [upd_ne _ _ _ _ ew] at hu'
        exact (ew (h.inj _ _ c hu' hu)).elim
    · subst e'
      rw [Function.update_self] at hu'
      rw [upd_ne _ _ _ _ e] at hu
      by_cases ew : u = w
      · subst ew; rw [Function.update_self] at hu; cases hu
      · rw [upd_ne _ _ _ _ ew] at hu
        exact (ew (h.inj _ _ c hu hu')).elim
    · rw [upd_ne _ _ _ _ e] at hu
      rw [upd_ne _ _ _ _ e'] at hu'
      by_cases ew : u = w
      · subst ew; rw [Function.update_self] at hu; cases hu
      · by_cases ew' : u' = w
        · subst ew'; rw [Function.update_self] at hu'; cases hu'
        · rw [upd_ne _ _ _ _ ew] at hu
          rw [upd_ne _ _ _ _ ew'] at hu'
          exact h.inj u u' c hu hu'

theorem rel_unset {m : Mem P} {a} (h : Rel m a) (v : Nat) (p : Option (Option Nat)) (q : Option (Option (P × Bool)))
    (hp : p = none ∧ q = none ∨ p = some none ∧ q = some none) :
    Rel { m with geo := Function.update m.geo v p } { a with geo := Function.update a.geo v q } := by
  refine rel_geo h _ _ (fun u => ?_) fun u u' c hu hu' => ?_
  · by_cases e : u = v
    · subst e
      rw [Function.update_self, Function.update_self]
      rcases hp with ⟨rfl, rfl⟩ | ⟨rfl, rfl⟩ <;> trivial
    · rw [upd_ne _ _ _ _ e, upd_ne _ _ _ _ e]; exact h.geo u
  · have key : ∀ u, Function.update m.geo v p u = some (some c) → m.geo u = some (some c) := by
      intro u hu
      by_cases e : u = v
      · subst e; rw [Function.update_self] at hu; rcases hp with ⟨rfl, -⟩ | ⟨rfl, -⟩ <;> cases hu
      · rwa [upd_ne _ _ _ _ e] at hu
    exact h.inj u u' c (key u hu) (key u' hu')

theorem rel_space {m : Mem P} {a : Spec.Handle.Vals P} (h : Rel m a) (s : Nat) (y : Option SpaceObj) (x : Option (P × Nat × Nat × Nat))
    (hn : y = none ↔ x = none) (hx : ∀ x', x = some x' → ∃ t, m.space t = y ∧ readSpace m t = some x') :
    Rel { m with space := Function.update m.space s y } { a with space := Function.update a.space s x } := by
  refine ⟨fun v => (h.geo v).mono (Nat.le_refl _) (fun _ _ => rfl) fun _ _ h => h, h.inj, fun u => ?_, h.mesh⟩
  by_cases e : u = s
  · subst e
    refine ⟨by simp only [Function.update_self]; exact hn, fun x' hx' => ?_⟩
    simp only [Function.update_self] at hx'
    obtain ⟨t, ht, hr⟩ := hx x' hx'
    simp only [readSpace, Function.update_self, Option.bind_eq_bind] at hr ⊢
    rw [← ht]
    exact hr
  · refine ⟨by simp only [upd_ne _ _ _ _ e]; exact (h.space u).1, fun x' hx' => ?_⟩
    simp only [upd_ne _ _ _ _ e] at hx'
    have := (h.space u).2 x' hx'
    simp only [readSpace, upd_ne _ _ _ _ e] at this ⊢
    exact this

theorem geo_some {m : Mem P} {a} (h : Rel m a) {v : Nat} {q} (hv : a.geo v = some q) :
    ∃ p, m.geo v = some p ∧ GeoRel m (some p) (some q) := by
  have := h.geo v
  rw [hv] at this
  cases hm : m.geo v with
  | none => rw [hm] at this; exact this.elim
  | some p => rw [hm] at this; exact ⟨p, rfl, this⟩

theorem geo_cell {m : Mem P} {a} (h : Rel m a) {v : Nat} {x : P × Bool} (hv : a.geo v = some (some x)) :
    ∃ c, m.geo v = some (some c) ∧ c < m.next ∧ m.cells c = some x.1 ∧ (x.2 = false → ∀ k o, m.meshes k = some o → o.geo ≠ c) := by
  obtain ⟨p, h1, h2⟩ := geo_some h hv
  cases p with
  | none => exact h2.elim
  | some c => exact ⟨c, h1, h2⟩

theorem space_some {m : Mem P} {a} (h : Rel m a) {s : Nat} {x} (hs : a.space s = some x) :
    ∃ y, m.space s = some y ∧ readSpace m s = some x := by
  cases hm : m.space s with
  | none => rw [(h.space s).1.1 hm] at hs; cases hs
  | some y => exact ⟨y, rfl, (h.space s).2 x hs⟩

/-- One operation. -/
theorem step_rel {m : Mem P} {a a' : Spec.Handle.Vals P} (h : Rel m a) (op : Op P) (hs : Spec.Handle.step a op = some a') :
    ∃ m', step m op = some m' ∧ Rel m' a' := by
  cases op with
  | geoDefault v =>
    cases hs
    exact ⟨_, rfl, rel_unset h v _ _ (Or.inr ⟨rfl, rfl⟩)⟩
  | geoVector v x =>
    cases hs
    exact ⟨_, rfl, rel_newCell h x v⟩
  | geoInit v x =>
    simp only [Spec.Handle.step] at hs
    split at hs
    · rename_i q hq
      cases hs
      obtain ⟨p, h1, -⟩ := geo_some h hq
      exact ⟨_, by simp only [step, h1]; rfl, rel_newCell h x v⟩
    · cases hs
  | geoCopy v w =>
    simp only [Spec.Handle.step] at hs
    split at hs
    · rename_i x hx
      cases hs
      obtain ⟨c, h1, -, h2, -⟩ := geo_cell h hx
      exact ⟨_, by simp only [step, copyGeo, readGeo, h1, Option.bind_eq_bind, Option.bind_some, h2]; rfl, rel_newCell h x.1 v⟩
    · cases hs
  | geoMove v w =>
    simp only [Spec.Handle.step] at hs
    split at hs
    · rename_i x hx
      cases hs
      obtain ⟨p, h1, -⟩ := geo_some h hx
      have := rel_move h v w
      rw [h1, hx] at this
      exact ⟨_, by simp only [step, moveGeo, h1]; rfl, this⟩
    · cases hs
  | geoAssign v w =>
    simp only [Spec.Handle.step] at hs
    split at hs
    · rename_i y x hy hx
      cases hs
      obtain ⟨c, h1, -, h2, -⟩ := geo_cell h hx
      obtain ⟨p, h3, -⟩ := geo_some h hy
      refine ⟨_, ?_, rel_newCell h x.1 v⟩
      simp only [step, copyGeo, readGeo, h1, Option.bind_eq_bind, Option.bind_some, h2, swapGeo, newCell, h3]
    · cases hs
  | geoMoveAssign v w =>
    simp only [Spec.Handle.step] at hs
    split at hs
    · rename_i y x hy hx
      cases hs
      obtain ⟨p, h1, -⟩ := geo_some h hx
      obtain ⟨q, h3, -⟩ := geo_some h hy
      have := rel_move h v w
      rw [h1, hx] at this
      have h4 : ∃ r, (setGeo m w none).geo v = some r := by
        by_cases e : v = w
        · exact ⟨none, by simp [setGeo, e]⟩
        · exact ⟨q, by simp [setGeo, upd_ne _ _ _ _ e, h3]⟩
      obtain ⟨r, h4⟩ := h4
      exact ⟨_, by simp only [step, moveGeo, h1, Option.bind_eq_bind, Option.bind_some, swapGeo, h4]; rfl, this⟩
    · cases hs
  | geoModify v f =>
    simp only [Spec.Handle.step] at hs
    split at hs
    · rename_i x hx
      cases hs
      obtain ⟨c, h1, h2, h3, h4⟩ := geo_cell h hx
      have h4 := h4 rfl
      have hm' : step m (.geoModify v f) = some { m with cells := Function.update m.cells c (some (f x)) } := by
        simp only [step, h1, Option.bind_eq_bind, Option.bind_some, h3]
      refine ⟨_, hm', ⟨fun w => ?_, h.inj, fun s => ⟨(h.space s).1, fun y hy => ?_⟩, h.mesh⟩⟩
      · by_cases e : w = v
        · subst e
          simp only [Function.update_self, h1]
          exact ⟨h2, by simp, fun _ => h4⟩
        · simp only [upd_ne _ _ _ _ e]
          have hw := h.geo w
          cases hg : m.geo w with
          | none => rw [hg] at hw; cases ha : a.geo w with
            | none => trivial
            | some q => rw [ha] at hw; exact hw.elim
          | some p =>
            rw [hg] at hw
            cases p with
            | none =>
              cases ha : a.geo w with
              | none => rw [ha] at hw; exact hw.elim
              | some q =>
                cases q with
                | none => trivial
                | some y => rw [ha] at hw; exact hw.elim
            | some c' =>
              have hne : c' ≠ c := fun hc => e (h.inj w v c (by rw [hg, hc]) h1)
              cases ha : a.geo w with
              | none => rw [ha] at hw; exact hw.elim
              | some q =>
                cases q with
                | none => rw [ha] at hw; exact hw.elim
                | some y =>
                  rw [ha] at hw
                  exact ⟨hw.1, (Function.update_of_ne hne _ _).trans hw.2.1, hw.2.2⟩
      · exact readSpace_congr m { m with cells := Function.update m.cells c (some (f x)) } s rfl (fun _ _ hk => hk)
          (fun k o ho => Function.update_of_ne (h4 k o ho) _ _) y ((h.space s).2 y hy)
    · cases hs
  | geoDestroy v =>
    simp only [Spec.Handle.step] at hs
    split at hs
    · rename_i q hq
      cases hs
      obtain ⟨p, h1, -⟩ := geo_some h hq
      exact ⟨_, by simp only [step, h1]; rfl, rel_unset h v _ _ (Or.inl ⟨rfl, rfl⟩)⟩
    · cases hs
  | spaceBuild s v M p rep =>
    simp only [Spec.Handle.step] at hs
    split at hs
    · rename_i x b hx
      cases hs
      obtain ⟨c, h1, h2, h3, -⟩ := geo_cell h hx
      have hnew : ∀ k o, m.meshes k = some o → k ≠ m.next := fun k o ho => Nat.ne_of_lt (h.mesh k o ho).1
      have hm' : step m (.spaceBuild s v M p rep) = some { m with meshes := Function.update m.meshes m.next (some ⟨c, M⟩), next := m.next + 1, space := Function.update m.space s (some ⟨m.next, p, rep⟩) } := by
        simp only [step, buildSpace, h1, Option.bind_eq_bind, Option.bind_some, h3]
      refine ⟨_, hm', ⟨fun w => ?_, h.inj, fun u => ?_, fun k o ho => ?_⟩⟩
      · by_cases e : w = v
        · subst e
          simp only [Function.update_self, h1]
          exact ⟨Nat.lt_succ_of_lt h2, h3, fun hb => by cases hb⟩
        · simp only [upd_ne _ _ _ _ e]
          have hw := h.geo w
          cases hg : m.geo w with
          | none => rw [hg] at hw; cases ha : a.geo w with
            | none => trivial
            | some q => rw [ha] at hw; exact hw.elim
          | some p =>
            rw [hg] at hw
            cases p with
            | none =>
              cases ha : a.geo w with
              | none => rw [ha] at hw; exact hw.elim
              | some q =>
                cases q with
                | none => trivial
                | some y => rw [ha] at hw; exact hw.elim
            | some c' =>
              have hne : c ≠ c' := fun hc => e (h.inj w v c (by rw [hg, hc]) h1)
              cases ha : a.geo w with
              | none => rw [ha] at hw; exact hw.elim
              | some q =>
                cases q with
                | none => rw [ha] at hw; exact hw.elim
                | some y =>
                  rw [ha] at hw
                  refine ⟨Nat.lt_succ_of_lt hw.1, hw.2.1, fun hb k o ho => ?_⟩
                  by_cases ek : k = m.next
                  · subst ek
                    simp only [Function.update_self] at ho
                    cases ho
                    exact hne
                  · simp only [upd_ne _ _ _ _ ek] at ho
                    exact hw.2.2 hb k o ho
      · by_cases e : u = s
        · subst e
          simp only [Function.update_self]
          refine ⟨by simp, fun y hy => ?_⟩
          cases hy
          simp [readSpace, h3]
        · simp only [upd_ne _ _ _ _ e]
          refine ⟨(h.space u).1, fun y hy => ?_⟩
          refine readSpace_congr m { m with meshes := Function.update m.meshes m.next (some ⟨c, M⟩), next := m.next + 1, space := Function.update m.space s (some ⟨m.next, p, rep⟩) } u (by simp only [upd_ne _ _ _ _ e]) (fun k o ho => ?_) (fun _ _ _ => rfl) y ((h.space u).2 y hy)
          simp only [upd_ne _ _ _ _ (hnew k o ho)]
          exact ho
      · by_cases ek : k = m.next
        · subst ek
          simp only [Function.update_self] at ho
          cases ho
          exact ⟨Nat.lt_succ_self _, Nat.lt_succ_of_lt h2⟩
        · simp only [upd_ne _ _ _ _ ek] at ho
          exact ⟨Nat.lt_succ_of_lt (h.mesh k o ho).1, Nat.lt_succ_of_lt (h.mesh k o ho).2⟩
    · cases hs
  | spaceCopy s t =>
    simp only [Spec.Handle.step] at hs
    split at hs
    · rename_i x hx
      cases hs
      obtain ⟨y, h1, h2⟩ := space_some h hx
      exact ⟨_, by simp only [step, h1]; rfl, rel_space h s _ _ (by simp) fun x' e => ⟨t, h1, by cases e; exact h2⟩⟩
    · cases hs
  | spaceMove s t =>
    simp only [Spec.Handle.step] at hs
    split at hs
    · rename_i x hx
      cases hs
      obtain ⟨y, h1, h2⟩ := space_some h hx
      exact ⟨_, by simp only [step, h1]; rfl, rel_space h s _ _ (by simp) fun x' e => ⟨t, h1, by cases e; exact h2⟩⟩
    · cases hs
  | spaceAssign s t =>
    simp only [Spec.Handle.step] at hs
    split at hs
    · rename_i z x hz hx
      cases hs
      obtain ⟨y, h1, h2⟩ := space_some h hx
      obtain ⟨y', h3, -⟩ := space_some h hz
      exact ⟨_, by simp only [step, h1, h3]; rfl, rel_space h s _ _ (by simp) fun x' e => ⟨t, h1, by cases e; exact h2⟩⟩
    · cases hs
  | spaceDestroy s =>
    simp only [Spec.Handle.step] at hs
    split at hs
    · rename_i x hx
      cases hs
      obtain ⟨y, h1, h2⟩ := space_some h hx
      exact ⟨_, by simp only [step, h1]; rfl, rel_space h s _ _ (by simp) fun x' e => by cases e⟩
    · cases hs

end GeoHandle
open Bembel.Handle GeoHandle
variable {P : Type}

/-- **C77**: for every history of operations on geometries and ansatz spaces that is meaningful for values, the program has no
undefined behaviour, every geometry variable reads its own value and every ansatz space the geometry it was built with: copies do
not influence each other, assignments and destructions of the geometry do not influence the spaces. -/
theorem C77_values (ops : List (Op P)) (a : Spec.Handle.Vals P) (h : Spec.Handle.run Spec.Handle.Vals.empty ops = some a) :
    ∃ m, Handle.run Mem.empty ops = some m ∧
      (∀ v x b, a.geo v = some (some (x, b)) → readGeo m v = some x) ∧ ∀ s x, a.space s = some x → readSpace m s = some x := by
  have key : ∀ (ops : List (Op P)) (m : Mem P) (a a' : Spec.Handle.Vals P), Rel m a → Spec.Handle.run a ops = some a' →
      ∃ m', Handle.run m ops = some m' ∧ Rel m' a' := by
    intro ops
    induction ops with
    | nil => intro m a a' hr h; cases h; exact ⟨m, rfl, hr⟩
    | cons op ops ih =>
      intro m a a' hr h
      rw [Spec.Handle.run, List.foldlM_cons] at h
      cases hs : Spec.Handle.step a op with
      | none => rw [hs] at h; cases h
      | some a1 =>
        rw [hs] at h
        obtain ⟨m1, h1, h2⟩ := step_rel hr op hs
        obtain ⟨m2, h3, h4⟩ := ih m1 a1 a' h2 h
        exact ⟨m2, by rw [Handle.run, List.foldlM_cons, h1]; exact h3, h4⟩
  obtain ⟨m, h1, h2⟩ := key ops Mem.empty Spec.Handle.Vals.empty a
    ⟨fun _ => trivial, (fun _ _ _ h => by cases h), (fun _ => ⟨by simp [Mem.empty, Spec.Handle.Vals.empty], fun _ h => by cases h⟩),
      fun _ _ h => by cases h⟩ h
  refine ⟨m, h1, fun v x b hv => ?_, fun s x hs => (h2.space s).2 x hs⟩
  obtain ⟨c, h3, -, h4, -⟩ := geo_cell h2 hv
  simp [readGeo, h3, h4]

/-- **C77** fails for modifications of a geometry from which an ansatz space was built: the space shares the patches, its surface
changes. -/
theorem C77_share_violated (x : P) (f : P → P) (hf : f x ≠ x) : ∃ ops m,
    ops = [.geoVector 0 x, .spaceBuild 0 0 2 1 1, .geoModify 0 f] ∧ Handle.run (Mem.empty : Mem P) ops = some m ∧
    readSpace m 0 ≠ some (x, 2, 1, 1) := by
  refine ⟨_, _, rfl, rfl, ?_⟩
  intro h
  simp [readSpace, step, newCell, setGeo, Mem.empty] at h
  exact hf h

/-- **C77**: a geometry that was moved from is empty: after any history it can neither be copied nor used to build a space. -/
theorem C77_moved (ops : List (Op P)) (v w u s M p rep : Nat) (hvw : v ≠ w) :
    Handle.run (Mem.empty : Mem P) (ops ++ [.geoMove w v, .geoCopy u v]) = none ∧
    Handle.run (Mem.empty : Mem P) (ops ++ [.geoMove w v, .spaceBuild s v M p rep]) = none := by
  simp only [Handle.run, List.foldlM_append]
  cases List.foldlM Handle.step Mem.empty ops with
  | none => exact ⟨rfl, rfl⟩
  | some m =>
    simp only [Option.bind_eq_bind, Option.bind_some, List.foldlM_cons, List.foldlM_nil, Handle.step, moveGeo]
    cases hg : m.geo v with
    | none => simp
    | some q => simp [setGeo, copyGeo, readGeo, buildSpace, Function.update_of_ne hvw]

/-- Non-vacuity: build, copy, modify the copy, move, assign, destroy; the space keeps its geometry. -/
example : ∃ m : Mem Nat, Handle.run Mem.empty [.geoVector 0 5, .spaceBuild 0 0 2 1 1, .geoCopy 1 0, .geoModify 1 (· + 1), .geoMove 2 0,
    .spaceCopy 1 0, .geoAssign 2 1, .geoDestroy 2, .spaceDestroy 0] = some m ∧ readGeo m 1 = some 6 ∧ readSpace m 1 = some (5, 2, 1, 1) ∧
    m.geo 0 = some none :=
  ⟨_, rfl, rfl, rfl, rfl⟩

end Bembel.Props
