import Mathlib.Data.List.Forall2
import Verif.Spec.BlockTreeHandle
import Verif.Props.Mesh
/-!
# Property theorems C78: block cluster trees are values

Reference point: `Spec/BlockTreeHandle`.
-/

namespace Bembel.Props.BTHandle
open Bembel.BlockTree Bembel.BlockCluster Bembel.Mesh Bembel.Util
open Bembel.Spec.BlockTree (Val Vals alive)

variable {K E C : Type}

/-- The leaf addresses of a variable. -/
def locs (self : Option Nat) (g : Option Nat) (n : Nat) : List Loc :=
  match g with
  | some g => (List.range n).map (Loc.son g)
  | none => [Loc.root self]

/-- The members of `r` form the tree `bt` with leaf cells `ps`. -/
structure Shape (m : Mem K E C) (ps : List Nat) (r : Root) (k : Nat) (bt : BTree) (cs : List C) : Prop where
  mesh : r.mesh = some k
  nodup : ps.Nodup
  vals : List.Forall₂ (fun c x => m.cells c = some x) ps cs
  len : ps.length = (leafPointers bt).length
  node : ∃ cc nr nc sons, bt = .node none none r.rows r.cols cc nr nc sons ∧ r.cc = some cc ∧
    (cc = Adm.refine → r.nr = nr ∧ r.nc = nc ∧ ∃ g, r.gen = some g ∧ m.blocks g = some ⟨k, nr, nc, sons, ps⟩) ∧
    (cc ≠ Adm.refine → r.gen = none ∧ ∃ c, r.leaf = some c ∧ ps = [c])

/-- Members of a variable against its value; `ps` are the leaf cells it owns. -/
structure VarRel (m : Mem K E C) (v : Nat) (ps : List Nat) (r : Root) (x : Val C) : Prop where
  params : (r.params = none ∧ x.params = none) ∨ ∃ q p, r.params = some q ∧ q < m.next ∧ m.params q = some p ∧ x.params = some p
  gen : ∀ g, r.gen = some g → g < m.next
  lp : ∀ q, r.lp = some q → q < m.next
  leaf : ∀ c, r.leaf = some c → c < m.next ∧ (m.cells c).isSome
  own : ∀ c ∈ ps, c < m.next
  notree : x.tree = none → r.gen = none ∧ ps = []
  tree : ∀ k bt cs, x.tree = some (k, bt, cs) → Shape m ps r k bt cs ∧
    ∃ q, r.lp = some q ∧ m.vecs q = some (locs (some v) r.gen ps.length)

/-- Memory against values; `ps v` are the leaf cells of variable `v`. -/
structure Rel (m : Mem K E C) (a : Vals K E C) (ps : Nat → List Nat) : Prop where
  meshes : m.meshes = a.meshes
  dom : ∀ v, m.vars v = none ↔ a.vars v = none
  var : ∀ v r x, m.vars v = some r → a.vars v = some x → VarRel m v (ps v) r x
  nops : ∀ v, m.vars v = none → ps v = []
  gen : ∀ v w r r' g, m.vars v = some r → m.vars w = some r' → r.gen = some g → r'.gen = some g → v = w
  lp : ∀ v w r r' x x' q, m.vars v = some r → m.vars w = some r' → a.vars v = some x → a.vars w = some x' →
    x.tree ≠ none → x'.tree ≠ none → r.lp = some q → r'.lp = some q → v = w
  cell : ∀ v w c, c ∈ ps v → c ∈ ps w → v = w
  par : ∀ v w r r' x q, m.vars v = some r → m.vars w = some r' → a.vars v = some x → x.shared = false →
    r.params = some q → r'.params = some q → v = w

theorem Shape.mono {m m' : Mem K E C} {ps r k bt cs} (h : Shape m ps r k bt cs) (hc : ∀ c ∈ ps, m'.cells c = m.cells c)
    (hb : ∀ g, r.gen = some g → m'.blocks g = m.blocks g) : Shape m' ps r k bt cs := by
  refine ⟨h.mesh, h.nodup, ?_, h.len, ?_⟩
  · have h1 := h.vals
    clear h
    induction h1 with
    | nil => exact .nil
    | @cons c x l l' h1 h2 ih =>
      exact .cons (by rw [hc c (by simp)]; exact h1) (ih fun c hc' => hc c (by simp [hc']))
  · obtain ⟨cc, nr, nc, sons, h1, h2, h3, h4⟩ := h.node
    refine ⟨cc, nr, nc, sons, h1, h2, fun e => ?_, h4⟩
    obtain ⟨a, b, g, h5, h6⟩ := h3 e
    exact ⟨a, b, g, h5, by rw [hb g h5]; exact h6⟩

theorem leafPointers_refine {r1 r2 : Option Nat} {nr nc : Nat} {sons : Nat → Nat → BTree} {c1 c2 : Cluster} :
    leafPointers (.node c1 c2 r1 r2 Adm.refine nr nc sons) = blockLeaves nr nc sons := by
  rw [leafPointers, if_pos rfl]; rfl

theorem blockLeaves_empty {nr nc : Nat} {sons : Nat → Nat → BTree} (h : nr * nc = 0) : blockLeaves nr nc sons = [] := by
  rcases Nat.mul_eq_zero.1 h with rfl | rfl <;> simp [blockLeaves]

theorem shape_update {m : Mem K E C} {ps r k bt cs} (h : Shape m ps r k bt cs) (hk : ∃ d, m.meshes k = some (d, true)) (self : Option Nat)
    (q : Nat) (hq : r.lp = some q) :
    updateLeafPointers m self r = some { m with vecs := Function.update m.vecs q (some (locs self r.gen ps.length)) } := by
  obtain ⟨d, hd⟩ := hk
  obtain ⟨cc, nr, nc, sons, h1, h2, h3, h4⟩ := h.node
  have hl : leafLocs m self r = some (locs self r.gen ps.length) := by
    by_cases hcc : cc = Adm.refine
    · obtain ⟨e1, e2, g, e3, e4⟩ := h3 hcc
      subst hcc
      have hlen := h.len
      rw [h1, leafPointers_refine] at hlen
      rw [leafLocs, if_pos h2, e1, e2]
      by_cases hz : nr * nc = 0
      · rw [if_pos hz, e3, hlen, blockLeaves_empty hz]; rfl
      · rw [if_neg hz, e3]
        simp only [Option.bind_eq_bind, Option.bind_some, e4, and_self, if_true, locs, hlen]
    · obtain ⟨e1, c, e2, e3⟩ := h4 hcc
      rw [leafLocs, if_neg (by rw [h2]; simpa using hcc), e1]
      rfl
  simp only [updateLeafPointers, meshAlive, h.mesh, hd, hq, hl, Option.bind_eq_bind, Option.bind_some, if_true]

/-- Variable `v` gets new members and a new value, everything that belongs to the others is untouched. -/
theorem rel_upd {m m' : Mem K E C} {a : Vals K E C} {ps} (h : Rel m a ps) (v : Nat) (r' : Root) (x' : Val C) (p' : List Nat)
    (hm : m'.meshes = m.meshes) (hv : m'.vars = Function.update m.vars v (some r')) (hn : m.next ≤ m'.next)
    (hsome : ∀ c < m.next, (m.cells c).isSome → (m'.cells c).isSome)
    (hcell : ∀ w, w ≠ v → ∀ c ∈ ps w, m'.cells c = m.cells c ∧ c ∉ p')
    (hgen : ∀ w, w ≠ v → ∀ r g, m.vars w = some r → r.gen = some g → m'.blocks g = m.blocks g ∧ r'.gen ≠ some g)
    (hlp : ∀ w, w ≠ v → ∀ r x q, m.vars w = some r → a.vars w = some x → x.tree ≠ none → r.lp = some q →
      m'.vecs q = m.vecs q ∧ (x'.tree ≠ none → r'.lp ≠ some q))
    (hpar : ∀ w, w ≠ v → ∀ r x q, m.vars w = some r → a.vars w = some x → r.params = some q →
      m'.params q = m.params q ∧ (r'.params = some q → x.shared = true ∧ x'.shared = true))
    (hnew : VarRel m' v p' r' x') : Rel m' (Spec.BlockTree.set a v x') (Function.update ps v p') := by
  have hvw : ∀ w, w ≠ v → m'.vars w = m.vars w := fun w hw => by rw [hv, Function.update_of_ne hw]
  have hvv : m'.vars v = some r' := by rw [hv, Function.update_self]
  have haw : ∀ w, w ≠ v → (Spec.BlockTree.set a v x').vars w = a.vars w := fun w hw => by simp [Spec.BlockTree.set, hw]
  have hav : (Spec.BlockTree.set a v x').vars v = some x' := by simp [Spec.BlockTree.set]
  have hpw : ∀ w, w ≠ v → Function.update ps v p' w = ps w := fun w hw => Function.update_of_ne hw _ _
  have hpv : Function.update ps v p' v = p' := Function.update_self ..
  have hax : ∀ w r, w ≠ v → m.vars w = some r → ∃ x, a.vars w = some x := fun w r hw hr => by
    cases hx : a.vars w with
    | none => rw [(h.dom w).2 hx] at hr; cases hr
    | some x => exact ⟨x, rfl⟩
  refine ⟨hm.trans h.meshes, fun w => ?_, fun w r x hr hx => ?_, fun w hw => ?_, fun w u r r2 g hr hr2 hg hg2 => ?_,
    fun w u r r2 x x2 q hr hr2 hx hx2 ht ht2 hq hq2 => ?_, fun w u c hc hc2 => ?_, fun w u r r2 x q hr hr2 hx hs hq hq2 => ?_⟩
  · by_cases e : w = v
    · rw [e, hvv, hav]; simp
    · rw [hvw w e, haw w e]; exact h.dom w
  · by_cases e : w = v
    · subst e
      rw [hvv] at hr; rw [hav] at hx
      cases hr; cases hx
      rw [hpv]; exact hnew
    · rw [hvw w e] at hr; rw [haw w e] at hx
      rw [hpw w e]
      have h1 := h.var w r x hr hx
      refine ⟨?_, fun g hg => (h1.gen g hg).trans_le hn, fun q hq => (h1.lp q hq).trans_le hn,
        fun c hc => ⟨(h1.leaf c hc).1.trans_le hn, hsome c (h1.leaf c hc).1 (h1.leaf c hc).2⟩, fun c hc => (h1.own c hc).trans_le hn, h1.notree,
        fun k bt cs ht => ?_⟩
      · rcases h1.params with h2 | ⟨q, p, h2, h3, h4, h5⟩
        · exact .inl h2
        · exact .inr ⟨q, p, h2, h3.trans_le hn, by rw [(hpar w e r x q hr hx h2).1]; exact h4, h5⟩
      · obtain ⟨h2, q, h3, h4⟩ := h1.tree k bt cs ht
        exact ⟨h2.mono (fun c hc => (hcell w e c hc).1) fun g hg => (hgen w e r g hr hg).1, q, h3,
          by rw [(hlp w e r x q hr hx (by rw [ht]; simp) h3).1]; exact h4⟩
  · have e : w ≠ v := fun e => by rw [e, hvv] at hw; cases hw
    rw [hpw w e]
    rw [hvw w e] at hw
    exact h.nops w hw
  · by_cases e : w = v <;> by_cases e2 : u = v
    · rw [e, e2]
    · rw [e, hvv] at hr; rw [hvw u e2] at hr2
      cases hr
      exact ((hgen u e2 r2 g hr2 hg2).2 hg).elim
    · rw [e2, hvv] at hr2; rw [hvw w e] at hr
      cases hr2
      exact ((hgen w e r g hr hg).2 hg2).elim
    · rw [hvw w e] at hr; rw [hvw u e2] at hr2
      exact h.gen w u r r2 g hr hr2 hg hg2
  · by_cases e : w = v <;> by_cases e2 : u = v
    · rw [e, e2]
    · rw [e, hvv] at hr; rw [hvw u e2] at hr2; rw [e, hav] at hx; rw [haw u e2] at hx2
      cases hr; cases hx
      exact ((hlp u e2 r2 x2 q hr2 hx2 ht2 hq2).2 ht hq).elim
    · rw [e2, hvv] at hr2; rw [hvw w e] at hr; rw [e2, hav] at hx2; rw [haw w e] at hx
      cases hr2; cases hx2
      exact ((hlp w e r x q hr hx ht hq).2 ht2 hq2).elim
    · rw [hvw w e] at hr; rw [hvw u e2] at hr2; rw [haw w e] at hx; rw [haw u e2] at hx2
      exact h.lp w u r r2 x x2 q hr hr2 hx hx2 ht ht2 hq hq2
  · by_cases e : w = v <;> by_cases e2 : u = v
    · rw [e, e2]
    · rw [e, hpv] at hc; rw [hpw u e2] at hc2
      exact ((hcell u e2 c hc2).2 hc).elim
    · rw [e2, hpv] at hc2; rw [hpw w e] at hc
      exact ((hcell w e c hc).2 hc2).elim
    · rw [hpw w e] at hc; rw [hpw u e2] at hc2
      exact h.cell w u c hc hc2
  · by_cases e : w = v <;> by_cases e2 : u = v
    · rw [e, e2]
    · rw [e, hvv] at hr; rw [hvw u e2] at hr2; rw [e, hav] at hx
      cases hr; cases hx
      obtain ⟨x2, hx2⟩ := hax u r2 e2 hr2
      have := ((hpar u e2 r2 x2 q hr2 hx2 hq2).2 hq).2
      rw [hs] at this; cases this
    · rw [e2, hvv] at hr2; rw [hvw w e] at hr; rw [haw w e] at hx
      cases hr2
      have := ((hpar w e r x q hr hx hq).2 hq2).1
      rw [hs] at this; cases this
    · rw [hvw w e] at hr; rw [hvw u e2] at hr2; rw [haw w e] at hx
      exact h.par w u r r2 x q hr hr2 hx hs hq hq2

/-- Setting the flag. -/
theorem rel_flag {m : Mem K E C} {a : Vals K E C} {ps} (h : Rel m a ps) (w : Nat) (x : Val C) (hx : a.vars w = some x) :
    Rel m (Spec.BlockTree.set a w { x with shared := true }) ps := by
  have key : ∀ u y, (Spec.BlockTree.set a w { x with shared := true }).vars u = some y →
      ∃ y', a.vars u = some y' ∧ y'.tree = y.tree ∧ y'.params = y.params ∧ (y.shared = false → y'.shared = false) := by
    intro u y hy
    by_cases e : u = w
    · subst e
      simp only [Spec.BlockTree.set, Function.update_self, Option.some.injEq] at hy
      subst hy
      exact ⟨x, hx, rfl, rfl, fun h => by cases h⟩
    · simp only [Spec.BlockTree.set, Function.update_of_ne e] at hy
      exact ⟨y, hy, rfl, rfl, id⟩
  refine ⟨h.meshes, fun v => ?_, fun v r y hr hy => ?_, h.nops, h.gen, ?_, h.cell, ?_⟩
  · by_cases e : v = w
    · subst e
      rw [h.dom v, hx]
      simp [Spec.BlockTree.set]
    · rw [h.dom v]
      simp [Spec.BlockTree.set, e]
  · obtain ⟨y', h1, h2, h3, -⟩ := key v y hy
    have h4 := h.var v r y' hr h1
    exact ⟨by rw [← h3]; exact h4.params, h4.gen, h4.lp, h4.leaf, h4.own, fun ht => h4.notree (h2.trans ht),
      fun k bt cs ht => h4.tree k bt cs (h2.trans ht)⟩
  · intro v u r r2 y y2 q hr hr2 hy hy2 ht ht2 hq hq2
    obtain ⟨y', h1, h2, -⟩ := key v y hy
    obtain ⟨y2', h3, h4, -⟩ := key u y2 hy2
    exact h.lp v u r r2 y' y2' q hr hr2 h1 h3 (by rw [h2]; exact ht) (by rw [h4]; exact ht2) hq hq2
  · intro v u r r2 y q hr hr2 hy hs hq hq2
    obtain ⟨y', h1, -, -, h2⟩ := key v y hy
    exact h.par v u r r2 y' q hr hr2 h1 (h2 hs) hq hq2

theorem rel_some {m : Mem K E C} {a : Vals K E C} {ps} (h : Rel m a ps) {v : Nat} {x : Val C} (hv : a.vars v = some x) :
    ∃ r, m.vars v = some r ∧ VarRel m v (ps v) r x := by
  cases hm : m.vars v with
  | none => rw [(h.dom v).1 hm] at hv; cases hv
  | some r => exact ⟨r, rfl, h.var v r x hm hv⟩

theorem rel_none {m : Mem K E C} {a : Vals K E C} {ps} (h : Rel m a ps) {v : Nat} (hv : a.vars v = none) : m.vars v = none :=
  (h.dom v).2 hv

/-- Only new addresses have been written. -/
structure Below (m m' : Mem K E C) : Prop where
  vars : m'.vars = m.vars
  meshes : m'.meshes = m.meshes
  params : ∀ q < m.next, m'.params q = m.params q
  next : m.next ≤ m'.next
  cells : ∀ c < m.next, m'.cells c = m.cells c
  blocks : ∀ g < m.next, m'.blocks g = m.blocks g
  vecs : ∀ q < m.next, m'.vecs q = m.vecs q

theorem Below.trans {m m' m'' : Mem K E C} (h : Below m m') (h' : Below m' m'') : Below m m'' :=
  ⟨h'.vars.trans h.vars, h'.meshes.trans h.meshes, fun q hq => (h'.params q (hq.trans_le h.next)).trans (h.params q hq), h.next.trans h'.next,
    fun q hq => (h'.cells q (hq.trans_le h.next)).trans (h.cells q hq), fun q hq => (h'.blocks q (hq.trans_le h.next)).trans (h.blocks q hq),
    fun q hq => (h'.vecs q (hq.trans_le h.next)).trans (h.vecs q hq)⟩

theorem Below.refl (m : Mem K E C) : Below m m := ⟨rfl, rfl, fun _ _ => rfl, Nat.le_refl _, fun _ _ => rfl, fun _ _ => rfl, fun _ _ => rfl⟩

theorem newCells_below (m : Mem K E C) (xs : List C) : Below m (newCells m xs).1 :=
  ⟨rfl, rfl, fun _ _ => rfl, Nat.le_add_right _ _, fun c hc => if_neg (by omega), fun _ _ => rfl, fun _ _ => rfl⟩

theorem newCells_mem (m : Mem K E C) (xs : List C) : ∀ c ∈ (newCells m xs).2, m.next ≤ c ∧ c < (newCells m xs).1.next := by
  intro c hc
  simp only [newCells, List.mem_map, List.mem_range] at hc ⊢
  obtain ⟨i, hi, rfl⟩ := hc
  omega

theorem newCells_nodup (m : Mem K E C) (xs : List C) : (newCells m xs).2.Nodup :=
  List.nodup_range.map fun a b h => by simpa using h

theorem newCells_vals (m : Mem K E C) (xs : List C) : List.Forall₂ (fun c x => (newCells m xs).1.cells c = some x) (newCells m xs).2 xs := by
  rw [List.forall₂_iff_get]
  refine ⟨by simp [newCells], fun i h1 h2 => ?_⟩
  simp only [newCells, List.get_eq_getElem, List.getElem_map, List.getElem_range]
  rw [if_pos (by omega)]
  simp [List.getElem?_eq_getElem h2]

theorem newBlock_below (m : Mem K E C) (b : Block) : Below m (newBlock m b).1 :=
  ⟨rfl, rfl, fun _ _ => rfl, Nat.le_succ _, fun _ _ => rfl, fun g hg => Function.update_of_ne (Nat.ne_of_lt hg) _ _, fun _ _ => rfl⟩

theorem newVec_below (m : Mem K E C) : Below m (newVec m).1 :=
  ⟨rfl, rfl, fun _ _ => rfl, Nat.le_succ _, fun _ _ => rfl, fun _ _ => rfl, fun g hg => Function.update_of_ne (Nat.ne_of_lt hg) _ _⟩

theorem newParams_below (m : Mem K E C) (p : Params) : Below m (newParams m p).1 :=
  ⟨rfl, rfl, fun g hg => Function.update_of_ne (Nat.ne_of_lt hg) _ _, Nat.le_succ _, fun _ _ => rfl, fun _ _ => rfl, fun _ _ => rfl⟩

theorem mapM_of_forall2 {α β : Type} {f : α → Option β} {l : List α} {l' : List β} (h : List.Forall₂ (fun a b => f a = some b) l l') :
    l.mapM f = some l' := by
  induction h with
  | nil => rfl
  | cons h1 h2 ih => simp [List.mapM_cons, h1, ih]

theorem copyLeaf_eq {m : Mem K E C} (c : Option Nat) (hc : ∀ a, c = some a → (m.cells a).isSome) :
    ∃ m' c', copyLeaf m c = some (m', c') ∧ Below m m' ∧ m'.params = m.params ∧ (c = none → c' = none) ∧
      ∀ a, c = some a → ∃ a', c' = some a' ∧ m.next ≤ a' ∧ a' < m'.next ∧ m'.cells a' = m.cells a := by
  cases c with
  | none => exact ⟨m, none, rfl, Below.refl m, rfl, fun _ => rfl, fun a h => by cases h⟩
  | some a =>
    obtain ⟨x, hx⟩ := Option.isSome_iff_exists.1 (hc a rfl)
    refine ⟨(newCells m [x]).1, some m.next, ?_, newCells_below _ _, rfl, fun h => (by cases h), fun b hb => ?_⟩
    · simp [copyLeaf, hx, newCells]
    · cases hb
      refine ⟨m.next, rfl, Nat.le_refl _, by simp [newCells], ?_⟩
      rw [hx]
      simp [newCells]

theorem copyRoot_eq {m : Mem K E C} {w ps r x k bt cs} (h : VarRel m w ps r x) (ht : x.tree = some (k, bt, cs))
    (hk : ∃ d, m.meshes k = some (d, true)) (self : Option Nat) :
    ∃ m' r' ps' q, copyRoot m self r = some (m', r') ∧ Below m m' ∧ r'.params = r.params ∧ Shape m' ps' r' k bt cs ∧
      r'.lp = some q ∧ m'.vecs q = some (locs self r'.gen ps'.length) ∧ m.next ≤ q ∧ q < m'.next ∧
      (∀ c ∈ ps', m.next ≤ c ∧ c < m'.next) ∧ (∀ g, r'.gen = some g → m.next ≤ g ∧ g < m'.next) ∧
      ∀ c, r'.leaf = some c → c < m'.next ∧ (m'.cells c).isSome := by
  obtain ⟨hs, -⟩ := h.tree k bt cs ht
  obtain ⟨cc, nr, nc, sons, h1, h2, h3, h4⟩ := hs.node
  obtain ⟨d, hd⟩ := hk
  by_cases hcc : cc = Adm.refine
  · obtain ⟨e1, e2, g, e3, e4⟩ := h3 hcc
    have hg := h.gen g e3
    -- sons
    have b1 := newCells_below m cs
    have b2 := newBlock_below (newCells m cs).1 ⟨k, nr, nc, sons, (newCells m cs).2⟩
    have b12 := b1.trans b2
    have hsons : copySons m r.gen = some ((newBlock (newCells m cs).1 ⟨k, nr, nc, sons, (newCells m cs).2⟩).1,
        some (newCells m cs).1.next) := by
      simp only [copySons, e3, e4, meshAlive, Option.bind_eq_bind, Option.bind_some, hd, mapM_of_forall2 hs.vals, if_true]
      rfl
    generalize hm2 : (newBlock (newCells m cs).1 ⟨k, nr, nc, sons, (newCells m cs).2⟩).1 = m2 at *
    have hblk : m2.blocks (newCells m cs).1.next = some ⟨k, nr, nc, sons, (newCells m cs).2⟩ := by
      rw [← hm2]; simp [newBlock]
    have hnx : (newCells m cs).1.next < m2.next := by rw [← hm2]; exact Nat.lt_succ_self _
    -- leaf
    obtain ⟨m3, c', hl, b3, hl2, hl3, hl4⟩ := copyLeaf_eq (m := m2) r.leaf fun a ha => by
      rw [b12.cells a (h.leaf a ha).1]; exact (h.leaf a ha).2
    have b4 := newVec_below m3
    have b13 := b12.trans b3
    have b14 := b13.trans b4
    let r' : Root := { r with gen := some (newCells m cs).1.next, leaf := c', lp := some m3.next }
    have hsh : Shape (newVec m3).1 (newCells m cs).2 r' k bt cs := by
      refine ⟨hs.mesh, newCells_nodup _ _, ?_, ?_, cc, nr, nc, sons, h1, h2, fun _ => ⟨e1, e2, _, rfl, ?_⟩, fun e => (e hcc).elim⟩
      · refine List.Forall₂.imp ?_ (List.forall₂_iff_get.2 ⟨(List.forall₂_iff_get.1 (newCells_vals m cs)).1, fun i a b =>
          And.intro ((List.forall₂_iff_get.1 (newCells_vals m cs)).2 i a b)
            ((newCells_mem m cs _ (List.get_mem (newCells m cs).2 ⟨i, a⟩)).2)⟩ :
              List.Forall₂ (fun c x => (newCells m cs).1.cells c = some x ∧ c < (newCells m cs).1.next) (newCells m cs).2 cs)
        rintro c x ⟨hc1, hc2⟩
        rw [← hc1]
        have : c < m2.next := hc2.trans hnx
        rw [(b3.trans b4).cells c this, ← hm2]
        rfl
      · rw [← hs.len, (newCells_vals m cs).length_eq, hs.vals.length_eq]
      · rw [(b3.trans b4).blocks _ hnx, hblk]
    have hup := shape_update hsh ⟨d, by rw [b14.meshes]; exact hd⟩ self m3.next rfl
    refine ⟨{ (newVec m3).1 with vecs := Function.update (newVec m3).1.vecs m3.next (some (locs self r'.gen (newCells m cs).2.length)) }, r', (newCells m cs).2, m3.next, ?_, ?_, rfl, hsh.mono (fun _ _ => rfl) fun _ _ => rfl, rfl, Function.update_self .., b13.next,
      Nat.lt_succ_self _, fun c hc => ⟨(newCells_mem m cs c hc).1, ?_⟩, fun g' hg' => ?_, fun c hc => ?_⟩
    · simp only [copyRoot, hsons, Option.bind_eq_bind, Option.bind_some, hl]
      rw [show (newVec m3).2 = m3.next from rfl]
      change (updateLeafPointers (newVec m3).1 self r').bind _ = _
      rw [hup]
      rfl
    · refine ⟨b14.vars, b14.meshes, b14.params, b14.next, b14.cells, b14.blocks, fun q hq => ?_⟩
      change Function.update (newVec m3).1.vecs m3.next _ q = _
      rw [Function.update_of_ne (Nat.ne_of_lt (hq.trans_le b13.next))]
      exact b14.vecs q hq
    · exact ((newCells_mem m cs c hc).2.trans hnx).trans_le (b3.trans b4).next
    · have : g' = (newCells m cs).1.next := by simpa [r'] using hg'.symm
      rw [this]
      exact ⟨b1.next, hnx.trans_le (b3.trans b4).next⟩
    · cases hrl : r.leaf with
      | none => rw [show r'.leaf = c' from rfl, hl3 hrl] at hc; cases hc
      | some a =>
        obtain ⟨a', ha1, ha2, ha3, ha4⟩ := hl4 a hrl
        rw [show r'.leaf = c' from rfl, ha1, Option.some.injEq] at hc
        subst hc
        refine ⟨ha3.trans_le b4.next, ?_⟩
        change ((newVec m3).1.cells a').isSome
        rw [b4.cells a' ha3, ha4, b12.cells a (h.leaf a hrl).1]
        exact (h.leaf a hrl).2
  · obtain ⟨e1, c, e2, e3⟩ := h4 hcc
    subst e3
    obtain ⟨m3, c', hl, b3, hl2, hl3, hl4⟩ := copyLeaf_eq (m := m) r.leaf fun a ha => (h.leaf a ha).2
    obtain ⟨a', ha1, ha2, ha3, ha4⟩ := hl4 c e2
    have b4 := newVec_below m3
    have b14 := b3.trans b4
    let r' : Root := { r with gen := none, leaf := c', lp := some m3.next }
    have hsh : Shape (newVec m3).1 [a'] r' k bt cs := by
      refine ⟨hs.mesh, by simp, ?_, hs.len, cc, nr, nc, sons, h1, h2, fun e => (hcc e).elim, fun _ => ⟨rfl, a', ha1, rfl⟩⟩
      have hv := hs.vals
      cases cs with
      | nil => cases hv
      | cons y ys =>
        cases ys with
        | nil =>
          rw [List.forall₂_cons] at hv ⊢
          refine ⟨?_, .nil⟩
          rw [b4.cells a' ha3, ha4]
          exact hv.1
        | cons z zs =>
          rw [List.forall₂_cons] at hv
          cases hv.2
    have hup := shape_update hsh ⟨d, by rw [b14.meshes]; exact hd⟩ self m3.next rfl
    refine ⟨{ (newVec m3).1 with vecs := Function.update (newVec m3).1.vecs m3.next (some (locs self r'.gen [a'].length)) }, r', [a'], m3.next, ?_, ?_, rfl, hsh.mono (fun _ _ => rfl) fun _ _ => rfl, rfl, Function.update_self .., b3.next,
      Nat.lt_succ_self _, fun c hc => ?_, fun g' hg' => (by cases hg'), fun c hc => ?_⟩
    · simp only [copyRoot, e1, copySons, Option.bind_eq_bind, Option.bind_some, hl]
      rw [show (newVec m3).2 = m3.next from rfl]
      change (updateLeafPointers (newVec m3).1 self r').bind _ = _
      rw [hup]
      rfl
    · refine ⟨b14.vars, b14.meshes, b14.params, b14.next, b14.cells, b14.blocks, fun q hq => ?_⟩
      change Function.update (newVec m3).1.vecs m3.next _ q = _
      rw [Function.update_of_ne (Nat.ne_of_lt (hq.trans_le b3.next))]
      exact b14.vecs q hq
    · rw [List.mem_singleton] at hc
      rw [hc]
      exact ⟨ha2, ha3.trans_le b4.next⟩
    · rw [show r'.leaf = c' from rfl, ha1] at hc
      cases hc
      refine ⟨ha3.trans_le b4.next, ?_⟩
      change ((newVec m3).1.cells a').isSome
      rw [b4.cells a' ha3, ha4]
      exact (h.leaf c e2).2

/-- `init_BlockClusterTree` always returns a node. -/
theorem init_node [NormedAddCommGroup E] (d : MeshData K E) (eta : ℝ) (ml : Int) :
    ∃ rows cols cc nr nc sons, initBlockClusterTree d.t d.B eta ml = .node none none rows cols cc nr nc sons ∧
      (initBlockClusterTree d.t d.B eta ml).cc = cc := by
  rw [initBlockClusterTree, appendSubtree]
  split <;> exact ⟨_, _, _, _, _, _, rfl, rfl⟩

/-- Everything but the sons, the leaf pointers and the parameters of `r`, and new addresses, is untouched. -/
structure Except (m m' : Mem K E C) (r : Root) : Prop where
  vars : m'.vars = m.vars
  meshes : m'.meshes = m.meshes
  params : ∀ q < m.next, r.params ≠ some q → m'.params q = m.params q
  next : m.next ≤ m'.next
  cells : ∀ c < m.next, m'.cells c = m.cells c
  blocks : ∀ g < m.next, r.gen ≠ some g → m'.blocks g = m.blocks g
  vecs : ∀ q < m.next, m'.vecs q = m.vecs q

theorem freeRoot_blocks (m : Mem K E C) (r : Root) (g : Nat) (h : r.gen ≠ some g) : (freeRoot m r).blocks g = m.blocks g := by
  unfold freeRoot
  cases hg : r.gen with
  | none => rfl
  | some g' =>
    have : g ≠ g' := fun e => h (by rw [hg, e])
    exact Function.update_of_ne this _ _

theorem freeRoot_eq (m : Mem K E C) (r : Root) : freeRoot m r = { m with blocks := (freeRoot m r).blocks } := by
  unfold freeRoot
  cases r.gen <;> rfl

theorem setParameters_rel {m : Mem K E C} {v ps r x} (h : VarRel m v ps r x) (eta : ℝ) (ml : Int) :
    VarRel (setParameters m r eta ml).1 v ps (setParameters m r eta ml).2 ⟨some ⟨eta, ml, none⟩, false, x.tree⟩ := by
  have b := newParams_below m ⟨eta, ml, none⟩
  refine ⟨.inr ⟨m.next, ⟨eta, ml, none⟩, rfl, Nat.lt_succ_self _, Function.update_self .., rfl⟩, fun g hg => (h.gen g hg).trans_le b.next,
    fun g hg => (h.lp g hg).trans_le b.next, fun c hc => ⟨(h.leaf c hc).1.trans_le b.next, (h.leaf c hc).2⟩,
    fun c hc => (h.own c hc).trans_le b.next, h.notree, fun k bt cs ht => ?_⟩
  obtain ⟨h1, h2⟩ := h.tree k bt cs ht
  exact ⟨⟨h1.mesh, h1.nodup, h1.vals, h1.len, h1.node⟩, h2⟩

theorem initRoot_eq [NormedAddCommGroup E] (new : C) {m : Mem K E C} {v ps r} {x x' : Val C} (h : VarRel m v ps r x) (a : Vals K E C)
    (hm : m.meshes = a.meshes) (k deg : Nat) (hb : Spec.BlockTree.build new a x k deg = some x') :
    ∃ m' r' ps', initRoot new m (some v) r k deg = some (m', r') ∧ Except m m' r ∧ VarRel m' v ps' r' x' ∧
      (∀ c ∈ ps', m.next ≤ c) ∧ (∀ g, r'.gen = some g → m.next ≤ g) ∧ (∀ q, r'.lp = some q → m.next ≤ q) ∧
      ((r.params = none ∧ ∃ q, r'.params = some q ∧ m.next ≤ q) ∨ (r.params ≠ none ∧ r'.params = r.params)) := by
  -- first step: parameters exist
  have key : ∃ m1 r1 p, ensureParameters m r = (m1, r1) ∧ Except m m1 r ∧ VarRel m1 v ps r1 ⟨some p, x.shared, x.tree⟩ ∧
      p = x.params.getD ⟨8 / 5, 1, none⟩ ∧ r1.gen = r.gen ∧
      ((r.params = none ∧ ∃ q, r1.params = some q ∧ m.next ≤ q) ∨ (r.params ≠ none ∧ r1.params = r.params)) := by
    unfold ensureParameters
    rcases h.params with ⟨h1, h2⟩ | ⟨q, p, h1, h2, h3, h4⟩
    · rw [h1, h2]
      have h3 := setParameters_rel h (8 / 5) 1
      have b := newParams_below m ⟨8 / 5, 1, none⟩
      exact ⟨_, _, _, rfl, ⟨rfl, rfl, fun q hq _ => b.params q hq, b.next, b.cells, fun g hg _ => b.blocks g hg, b.vecs⟩,
        ⟨h3.params, h3.gen, h3.lp, h3.leaf, h3.own, h3.notree, h3.tree⟩, rfl, rfl, .inl ⟨rfl, m.next, rfl, Nat.le_refl _⟩⟩
    · rw [h1, h4]
      refine ⟨m, r, p, rfl, ⟨rfl, rfl, fun _ _ _ => rfl, Nat.le_refl _, fun _ _ => rfl, fun _ _ _ => rfl, fun _ _ => rfl⟩, ?_, rfl, rfl,
        .inr ⟨by simp, h1⟩⟩
      exact ⟨.inr ⟨q, p, h1, h2, h3, rfl⟩, h.gen, h.lp, h.leaf, h.own, h.notree, h.tree⟩
  obtain ⟨m1, r1, p, hk1, f1, h1, hp, hg1, hpar⟩ := key
  rcases h1.params with ⟨-, h2⟩ | ⟨q, p', hq1, hq2, hq3, hq4⟩
  · cases h2
  obtain rfl : p = p' := by simpa using hq4
  -- the value
  simp only [Spec.BlockTree.build] at hb
  split at hb
  case h_2 => cases hb
  rename_i d hd
  rw [← hp] at hb
  obtain ⟨rows, cols, cc, nr, nc, sons, hbt, hcc⟩ := init_node d p.eta p.minLevel
  rw [hcc, hbt] at hb
  split at hb
  case isFalse => cases hb
  rename_i hcond
  cases hb
  have hal : ∀ m' : Mem K E C, m'.meshes = m.meshes → meshAlive m' (some k) = some d := by
    intro m' hm'
    simp only [meshAlive, Option.bind_eq_bind, Option.bind_some, hm', hm, hd, if_true]
  let m2 : Mem K E C := { m1 with params := Function.update m1.params q (some { p with bound := some (k, deg) }) }
  have b3 := newVec_below m2
  let m3 := (newVec m2).1
  have hm3 : m3.meshes = m.meshes := f1.meshes
  by_cases hc : cc = Adm.refine
  · subst hc
    have hre : resizeSons m3 r1 nr = some () := by
      unfold resizeSons
      cases hgen : r1.gen with
      | none => rfl
      | some g =>
        cases htr : x.tree with
        | none => rw [(h1.notree htr).1] at hgen; cases hgen
        | some t =>
          obtain ⟨k', bt', cs'⟩ := t
          obtain ⟨hs, -⟩ := h1.tree k' bt' cs' htr
          obtain ⟨cc', nr', nc', sons', e1, e2, e3, e4⟩ := hs.node
          have hcc' : cc' = Adm.refine := by
            by_contra hne
            rw [(e4 hne).1] at hgen; cases hgen
          obtain ⟨-, -, g', e5, e6⟩ := e3 hcc'
          rw [hgen] at e5
          cases e5
          obtain ⟨d', hd'⟩ := (hcond.2 k' (bt', cs') htr).1
          have e7 : m3.blocks g = some ⟨k', nr', nc', sons', ps⟩ := e6
          have e8 : meshAlive m3 (some k') = some d' := by
            simp only [meshAlive, Option.bind_eq_bind, Option.bind_some, hm3, hm, hd', if_true]
          simp only [Option.bind_eq_bind, Option.bind_some, e7]
          split
          · rw [e8]; rfl
          · rfl
    let n := (blockLeaves nr nc sons).length
    let m4 := freeRoot m3 r1
    have hm4 : m4 = { m3 with blocks := m4.blocks } := freeRoot_eq m3 r1
    have hm4n : m4.next = m3.next := by rw [hm4]
    let c5 := newCells m4 (List.replicate n new)
    let b6 := newBlock c5.1 ⟨k, nr, nc, sons, c5.2⟩
    let r' : Root := { r1 with gen := some b6.2, nr := nr, nc := nc, lp := some (newVec m2).2, mesh := some k, rows := rows, cols := cols,
                               cc := some Adm.refine }
    have hb5 := newCells_below m4 (List.replicate n new)
    have hb6 := newBlock_below c5.1 ⟨k, nr, nc, sons, c5.2⟩
    have hb56 := hb5.trans hb6
    have hsh : Shape b6.1 c5.2 r' k (.node none none rows cols Adm.refine nr nc sons)
        (List.replicate (leafPointers (.node none none rows cols Adm.refine nr nc sons)).length new) := by
      have hln : (leafPointers (.node none none rows cols Adm.refine nr nc sons)).length = n := by rw [leafPointers_refine]
      rw [hln]
      refine ⟨rfl, newCells_nodup _ _, newCells_vals m4 (List.replicate n new), ?_, Adm.refine, nr, nc, sons, rfl, rfl, fun _ => ⟨rfl, rfl, _, rfl, ?_⟩,
        fun e => (e rfl).elim⟩
      · rw [hln, (newCells_vals m4 (List.replicate n new)).length_eq, List.length_replicate]
      · exact Function.update_self ..
    have hmesh6 : b6.1.meshes = m.meshes := by rw [hb56.meshes, hm4]; exact hm3
    have hup := shape_update hsh ⟨d, by rw [hmesh6, hm]; exact hd⟩ (some v) (newVec m2).2 rfl
    have hn12 : m.next ≤ m2.next := f1.next
    have hn23 : m2.next < m3.next := Nat.lt_succ_self _
    have hn36 : m3.next ≤ b6.1.next := by rw [← hm4n]; exact hb56.next
    have hn46 : c5.1.next < b6.1.next := Nat.lt_succ_self _
    refine ⟨{ b6.1 with vecs := Function.update b6.1.vecs (newVec m2).2 (some (locs (some v) r'.gen c5.2.length)) }, r', c5.2, ?_, ?_, ?_,
      fun c hc => ?_, fun g hg => ?_, fun q' hq' => ?_, hpar⟩
    · unfold initRoot
      rw [hk1]
      simp only [Option.bind_eq_bind, hq1, Option.bind_some, hq3]
      rw [hal m1 f1.meshes]
      simp only [Option.bind_some, hbt, if_true]
      have e : resizeSons (newVec m2).1 r1 nr = some () := hre
      rw [e]
      simp only [Option.bind_some]
      change (updateLeafPointers b6.1 (some v) r').bind _ = _
      rw [hup]
      have e' : { r' with params := some q } = r' := by rw [← hq1]
      exact congrArg (fun z : Root => some (({ b6.1 with vecs := Function.update b6.1.vecs (newVec m2).2 (some (locs (some v) r'.gen c5.2.length)) } : Mem K E C), z)) e'
    · refine ⟨?_, hmesh6, fun q' hq' hne => ?_, by change m.next ≤ b6.1.next; omega, fun c hc => ?_, fun g hg hne => ?_, fun q' hq' => ?_⟩
      · rw [show ({ b6.1 with vecs := Function.update b6.1.vecs (newVec m2).2 (some (locs (some v) r'.gen c5.2.length)) } : Mem K E C).vars = b6.1.vars from rfl,
          hb56.vars, hm4]
        exact f1.vars
      · change b6.1.params q' = _
        rw [hb56.params q' (by omega), hm4]
        change Function.update m1.params q _ q' = _
        rw [Function.update_of_ne, f1.params q' hq' hne]
        rintro rfl
        rcases hpar with ⟨-, q2, e1, e2⟩ | ⟨-, e1⟩
        · rw [hq1] at e1; cases e1; omega
        · exact hne (by rw [← e1]; exact hq1)
      · change b6.1.cells c = _
        rw [hb56.cells c (by omega), hm4]
        exact f1.cells c hc
      · change b6.1.blocks g = _
        rw [hb56.blocks g (by omega)]
        rw [freeRoot_blocks m3 r1 g (by rw [hg1]; exact hne)]
        exact f1.blocks g hg hne
      · change Function.update b6.1.vecs m2.next _ q' = _
        rw [Function.update_of_ne (by omega), hb56.vecs q' (by omega), hm4]
        change Function.update m2.vecs m2.next _ q' = _
        rw [Function.update_of_ne (by omega)]
        exact f1.vecs q' hq'
    · refine ⟨.inr ⟨q, { p with bound := some (k, deg) }, hq1, ?_, ?_, rfl⟩, fun g hg => ?_, fun q' hq' => ?_, fun c hc => ?_,
        fun c hc => (newCells_mem m4 _ c hc).2.trans hn46, fun e => (by cases e), fun k' bt' cs' e => ?_⟩
      · change q < b6.1.next
        have : m2.next = m1.next := rfl
        omega
      · change b6.1.params q = _
        have : m2.next = m1.next := rfl
        rw [hb56.params q (by omega), hm4]
        exact Function.update_self ..
      · have : g = c5.1.next := (Option.some.inj hg).symm
        rw [this]; exact hn46
      · have : q' = m2.next := (Option.some.inj hq').symm
        rw [this]
        change m2.next < b6.1.next
        omega
      · have e := h1.leaf c hc
        have : m2.next = m1.next := rfl
        refine ⟨?_, ?_⟩
        · change c < b6.1.next
          omega
        · change (b6.1.cells c).isSome
          rw [hb56.cells c (by omega), hm4]
          exact e.2
      · cases e
        exact ⟨hsh.mono (fun _ _ => rfl) fun _ _ => rfl, (newVec m2).2, rfl, Function.update_self ..⟩
    · have := (newCells_mem m4 _ c hc).1
      omega
    · have : g = c5.1.next := (Option.some.inj hg).symm
      have e : m4.next ≤ c5.1.next := hb5.next
      rw [this]
      change m.next ≤ c5.1.next
      omega
    · have : q' = m2.next := (Option.some.inj hq').symm
      omega
  · have hnt : x.tree = none := by
      by_contra hne
      obtain ⟨t, ht⟩ := Option.ne_none_iff_exists'.1 hne
      exact hc (hcond.2 t.1 t.2 ht).2
    have hgn : r1.gen = none := (h1.notree hnt).1
    let c5 := newCells m3 [new]
    let r' : Root := { r1 with leaf := some m3.next, lp := some (newVec m2).2, mesh := some k, rows := rows, cols := cols, cc := some cc }
    have hb5 := newCells_below m3 [new]
    have hsh : Shape c5.1 [m3.next] r' k (.node none none rows cols cc nr nc sons)
        (List.replicate (leafPointers (.node none none rows cols cc nr nc sons)).length new) := by
      have hln : (leafPointers (.node none none rows cols cc nr nc sons)).length = 1 := by rw [leafPointers, if_neg hc]; rfl
      rw [hln]
      refine ⟨rfl, by simp, newCells_vals m3 [new], by rw [hln]; rfl, cc, nr, nc, sons, rfl, rfl, fun e => (hc e).elim, fun _ => ⟨hgn, m3.next, rfl, rfl⟩⟩
    have hmesh6 : c5.1.meshes = m.meshes := hm3
    have hup := shape_update hsh ⟨d, by rw [hmesh6, hm]; exact hd⟩ (some v) (newVec m2).2 rfl
    have hn12 : m.next ≤ m2.next := f1.next
    have hn23 : m2.next < m3.next := Nat.lt_succ_self _
    have hn36 : m3.next < c5.1.next := Nat.lt_succ_self _
    have h21 : m2.next = m1.next := rfl
    refine ⟨{ c5.1 with vecs := Function.update c5.1.vecs (newVec m2).2 (some (locs (some v) r'.gen [m3.next].length)) }, r', [m3.next], ?_, ?_, ?_,
      fun c hc => ?_, fun g hg => ?_, fun q' hq' => ?_, hpar⟩
    · unfold initRoot
      rw [hk1]
      simp only [Option.bind_eq_bind, hq1, Option.bind_some, hq3]
      rw [hal m1 f1.meshes]
      simp only [Option.bind_some, hbt, if_neg hc]
      change (updateLeafPointers c5.1 (some v) r').bind _ = _
      rw [hup]
      have e' : { r' with params := some q } = r' := by rw [← hq1]
      exact congrArg (fun z : Root => some (({ c5.1 with vecs := Function.update c5.1.vecs (newVec m2).2 (some (locs (some v) r'.gen [m3.next].length)) } : Mem K E C), z)) e'
    · refine ⟨f1.vars, hmesh6, fun q' hq' hne => ?_, by change m.next ≤ c5.1.next; omega, fun c hc => ?_, fun g hg hne => f1.blocks g hg hne, fun q' hq' => ?_⟩
      · change Function.update m1.params q _ q' = _
        rw [Function.update_of_ne, f1.params q' hq' hne]
        rintro rfl
        rcases hpar with ⟨-, q2, e1, e2⟩ | ⟨-, e1⟩
        · rw [hq1] at e1; cases e1; omega
        · exact hne (by rw [← e1]; exact hq1)
      · change c5.1.cells c = _
        rw [hb5.cells c (by omega)]
        exact f1.cells c hc
      · change Function.update c5.1.vecs m2.next _ q' = _
        rw [Function.update_of_ne (by omega), hb5.vecs q' (by omega)]
        change Function.update m2.vecs m2.next _ q' = _
        rw [Function.update_of_ne (by omega)]
        exact f1.vecs q' hq'
    · refine ⟨.inr ⟨q, { p with bound := some (k, deg) }, hq1, ?_, ?_, rfl⟩, fun g hg => ?_, fun q' hq' => ?_, fun c hc => ?_,
        fun c hc => ?_, fun e => (by cases e), fun k' bt' cs' e => ?_⟩
      · change q < c5.1.next
        omega
      · exact Function.update_self ..
      · rw [show r'.gen = r1.gen from rfl, hgn] at hg; cases hg
      · have : q' = m2.next := (Option.some.inj hq').symm
        rw [this]
        change m2.next < c5.1.next
        omega
      · have : c = m3.next := by simpa [r'] using hc.symm
        rw [this]
        refine ⟨hn36, ?_⟩
        change (c5.1.cells m3.next).isSome
        simp [c5, newCells]
      · rw [List.mem_singleton] at hc
        rw [hc]; exact hn36
      · cases e
        exact ⟨hsh.mono (fun _ _ => rfl) fun _ _ => rfl, (newVec m2).2, rfl, Function.update_self ..⟩
    · rw [List.mem_singleton] at hc
      omega
    · rw [show r'.gen = r1.gen from rfl, hgn] at hg; cases hg
    · have : q' = m2.next := (Option.some.inj hq').symm
      omega

theorem own_lt {m : Mem K E C} {a : Vals K E C} {ps} (h : Rel m a ps) {w c : Nat} (hc : c ∈ ps w) : c < m.next := by
  cases hm : m.vars w with
  | none => rw [h.nops w hm] at hc; cases hc
  | some r =>
    cases hx : a.vars w with
    | none => rw [(h.dom w).2 hx] at hm; cases hm
    | some x => exact (h.var w r x hm hx).own c hc

theorem par_lt {m : Mem K E C} {a : Vals K E C} {ps} (h : Rel m a ps) {w r x q} (hr : m.vars w = some r) (hx : a.vars w = some x)
    (hq : r.params = some q) : q < m.next := by
  rcases (h.var w r x hr hx).params with ⟨e, -⟩ | ⟨q', p, e1, e2, -⟩
  · rw [e] at hq; cases hq
  · rw [hq] at e1; cases e1; exact e2

theorem rel_mesh {m : Mem K E C} {a : Vals K E C} {ps} (h : Rel m a ps) (f : Nat → Option (MeshData K E × Bool)) :
    Rel { m with meshes := f } { a with meshes := f } ps := by
  refine ⟨rfl, h.dom, fun v r x hr hx => ?_, h.nops, h.gen, h.lp, h.cell, h.par⟩
  have h1 := h.var v r x hr hx
  refine ⟨h1.params, h1.gen, h1.lp, h1.leaf, h1.own, h1.notree, fun k bt cs ht => ?_⟩
  obtain ⟨h2, h3⟩ := h1.tree k bt cs ht
  exact ⟨h2.mono (fun _ _ => rfl) fun _ _ => rfl, h3⟩

theorem default_rel (m : Mem K E C) (v : Nat) : VarRel m v [] defaultRoot ⟨none, false, none⟩ :=
  ⟨.inl ⟨rfl, rfl⟩, nofun, nofun, nofun, nofun, fun _ => ⟨rfl, rfl⟩, nofun⟩

theorem VarRel.vars {m : Mem K E C} {v ps r x} (h : VarRel m v ps r x) (f : Nat → Option Root) : VarRel { m with vars := f } v ps r x := by
  refine ⟨h.params, h.gen, h.lp, h.leaf, h.own, h.notree, fun k bt cs ht => ?_⟩
  obtain ⟨h2, h3⟩ := h.tree k bt cs ht
  exact ⟨h2.mono (fun _ _ => rfl) fun _ _ => rfl, h3⟩

theorem rel_init [NormedAddCommGroup E] (new : C) {m : Mem K E C} {a : Vals K E C} {ps} (h : Rel m a ps) (v k deg : Nat) {r} {x x' : Val C} {p0}
    (hr : VarRel m v p0 r x) (hb : Spec.BlockTree.build new a x k deg = some x')
    (hg : ∀ w, w ≠ v → ∀ r' g, m.vars w = some r' → r'.gen = some g → r.gen ≠ some g)
    (hp : x.shared = false → ∀ w, w ≠ v → ∀ r' q, m.vars w = some r' → r'.params = some q → r.params ≠ some q) :
    ∃ m' r' ps', initRoot new m (some v) r k deg = some (m', r') ∧
      Rel { m' with vars := Function.update m'.vars v (some r') } (Spec.BlockTree.set a v x') ps' := by
  obtain ⟨m', r', p', h1, f, h2, h3, h4, h5, h6⟩ := initRoot_eq new hr a h.meshes k deg hb
  have hsh : x.params ≠ none → x.shared = false := by
    simp only [Spec.BlockTree.build] at hb
    split at hb
    case h_2 => cases hb
    split at hb
    case isFalse => cases hb
    rename_i hc
    exact hc.1
  have hrp : r.params ≠ none → x.shared = false := fun e => by
    rcases hr.params with ⟨e1, -⟩ | ⟨q, p, -, -, -, e2⟩
    · exact (e e1).elim
    · exact hsh (by rw [e2]; simp)
  refine ⟨m', r', Function.update ps v p', h1, rel_upd h v r' x' p' f.meshes (by rw [← f.vars]) f.next (fun c hlt hc => ?_) (fun w hw c hc => ?_)
    (fun w hw r2 g hr2 hg2 => ?_) (fun w hw r2 x2 q hr2 hx2 ht hq => ?_) (fun w hw r2 x2 q hr2 hx2 hq => ?_) (h2.vars _)⟩
  · rw [show ({ m' with vars := Function.update m'.vars v (some r') } : Mem K E C).cells = m'.cells from rfl, f.cells c hlt]; exact hc
  · have hlt := own_lt h hc
    exact ⟨f.cells c hlt, fun hc' => by have := h3 c hc'; omega⟩
  · obtain ⟨x2, hx2⟩ : ∃ x2, a.vars w = some x2 := by
      cases e : a.vars w with
      | none => rw [(h.dom w).2 e] at hr2; cases hr2
      | some x2 => exact ⟨x2, rfl⟩
    have hlt := (h.var w r2 x2 hr2 hx2).gen g hg2
    exact ⟨f.blocks g hlt (hg w hw r2 g hr2 hg2), fun e => by have := h4 g e; omega⟩
  · have hlt := (h.var w r2 x2 hr2 hx2).lp q hq
    exact ⟨f.vecs q hlt, fun _ e => by have := h5 q e; omega⟩
  · have hlt := par_lt h hr2 hx2 hq
    have hne : r.params ≠ some q := fun e => hp (hrp (by rw [e]; simp)) w hw r2 q hr2 hq e
    refine ⟨f.params q hlt hne, fun e => ?_⟩
    rcases h6 with ⟨-, q', e1, e2⟩ | ⟨e1, e2⟩
    · rw [e1] at e; cases e; omega
    · exact (hne (by rw [← e2]; exact e)).elim

theorem forall2_set {f : Nat → Option C} {ps : List Nat} {cs : List C} (h : List.Forall₂ (fun c x => f c = some x) ps cs) (hn : ps.Nodup) (i : Nat)
    (hi : i < ps.length) (y : C) : List.Forall₂ (fun c x => Function.update f ps[i] (some y) c = some x) ps (cs.set i y) := by
  rw [List.forall₂_iff_get] at h ⊢
  refine ⟨by rw [List.length_set]; exact h.1, fun j h1 h2 => ?_⟩
  simp only [List.get_eq_getElem, List.getElem_set]
  by_cases e : i = j
  · subst e
    rw [if_pos rfl, Function.update_self]
  · rw [if_neg e, Function.update_of_ne]
    · exact h.2 j h1 (by simpa using h2)
    · intro e'
      exact e (hn.getElem_inj_iff.1 e').symm

theorem leafAt_locs {m : Mem K E C} {v r ps k bt cs} (hv : m.vars v = some r) (h : Shape m ps r k bt cs) (i : Nat) (hi : i < ps.length) :
    ∃ l, (locs (some v) r.gen ps.length)[i]? = some l ∧ leafAt m l = some ps[i] := by
  obtain ⟨cc, nr, nc, sons, h1, h2, h3, h4⟩ := h.node
  by_cases hcc : cc = Adm.refine
  · obtain ⟨-, -, g, e1, e2⟩ := h3 hcc
    refine ⟨.son g i, by simp [locs, e1, hi], ?_⟩
    simp [leafAt, e2, hi]
  · obtain ⟨e1, c, e2, e3⟩ := h4 hcc
    subst e3
    have : i = 0 := by simpa using hi
    subst this
    exact ⟨.root (some v), by simp [locs, e1], by simp [leafAt, hv, e2]⟩

theorem shared_of {m : Mem K E C} {a : Vals K E C} {ps} (h : Rel m a ps) {w w' : Nat} {r r' : Root} {x : Val C} {q : Nat} (hne : w' ≠ w)
    (hr : m.vars w = some r) (hr' : m.vars w' = some r') (hx : a.vars w' = some x) (hq : r.params = some q) (hq' : r'.params = some q) :
    x.shared = true := by
  cases hs : x.shared with
  | true => rfl
  | false => exact (hne (h.par w' w r' r x q hr' hr hx hs hq' hq)).elim

/-- Variable `v` gets a copy. -/
theorem rel_copied {m m' : Mem K E C} {a : Vals K E C} {ps} (h : Rel m a ps) (v w : Nat) {r r' : Root} {p : Option Params} {s : Bool}
    {t : Nat × BTree × List C} {p' : List Nat} {q : Nat} (hw : m.vars w = some r) (hx : a.vars w = some ⟨p, s, some t⟩)
    (hvars : m'.vars = Function.update m.vars v (some r')) (hmesh : m'.meshes = m.meshes) (hnext : m.next ≤ m'.next)
    (hpar : ∀ q < m.next, m'.params q = m.params q) (hcells : ∀ c < m.next, m'.cells c = m.cells c)
    (hblocks : ∀ g < m.next, (∀ w r, w ≠ v → m.vars w = some r → r.gen = some g → m'.blocks g = m.blocks g))
    (hvecs : ∀ q < m.next, m'.vecs q = m.vecs q) (hrp : r'.params = r.params) (hs : Shape m' p' r' t.1 t.2.1 t.2.2) (hlp : r'.lp = some q)
    (hlocs : m'.vecs q = some (locs (some v) r'.gen p'.length)) (hq1 : m.next ≤ q) (hq2 : q < m'.next)
    (hown : ∀ c ∈ p', m.next ≤ c ∧ c < m'.next) (hgen : ∀ g, r'.gen = some g → m.next ≤ g ∧ g < m'.next)
    (hleaf : ∀ c, r'.leaf = some c → c < m'.next ∧ (m'.cells c).isSome) :
    Rel m' (Spec.BlockTree.set (Spec.BlockTree.set a w ⟨p, true, some t⟩) v ⟨p, true, some t⟩) (Function.update ps v p') := by
  have hf := rel_flag h w _ hx
  have hvr := h.var w r _ hw hx
  refine rel_upd hf v r' _ p' hmesh hvars hnext (fun c hlt hc => by rw [hcells c hlt]; exact hc) (fun u hu c hc => ?_)
    (fun u hu r2 g hr2 hg2 => ?_) (fun u hu r2 x2 q' hr2 hx2 ht hq' => ?_) (fun u hu r2 x2 q' hr2 hx2 hq' => ?_) ?_
  · have hlt := own_lt h hc
    exact ⟨hcells c hlt, fun hc' => by have := (hown c hc').1; omega⟩
  · obtain ⟨x2, hx2⟩ : ∃ x2, a.vars u = some x2 := by
      cases e : a.vars u with
      | none => rw [(h.dom u).2 e] at hr2; cases hr2
      | some x2 => exact ⟨x2, rfl⟩
    have hlt := (h.var u r2 x2 hr2 hx2).gen g hg2
    exact ⟨hblocks g hlt u r2 hu hr2 hg2, fun e => by have := (hgen g e).1; omega⟩
  · have hlt := (hf.var u r2 x2 hr2 hx2).lp q' hq'
    exact ⟨hvecs q' hlt, fun _ e => by rw [hlp] at e; cases e; omega⟩
  · have hlt := par_lt hf hr2 hx2 hq'
    refine ⟨hpar q' hlt, fun e => ⟨?_, rfl⟩⟩
    rw [hrp] at e
    by_cases euw : u = w
    · subst euw
      simp only [Spec.BlockTree.set, Function.update_self, Option.some.injEq] at hx2
      rw [← hx2]
    · exact shared_of hf euw hw hr2 hx2 e hq'
  · refine ⟨?_, fun g hg => (hgen g hg).2, fun q' hq' => by rw [hlp] at hq'; cases hq'; exact hq2, hleaf, fun c hc => (hown c hc).2,
      (by simp), fun k bt cs e => ?_⟩
    · rw [hrp]
      rcases hvr.params with e | ⟨q', pp, e1, e2, e3, e4⟩
      · exact .inl e
      · exact .inr ⟨q', pp, e1, e2.trans_le hnext, by rw [hpar q' e2]; exact e3, e4⟩
    · cases e
      exact ⟨hs, q, hlp, hlocs⟩

/-- Variable `v` gets what variable `w` had. -/
theorem rel_moved {m m' : Mem K E C} {a : Vals K E C} {ps} (h : Rel m a ps) (v w : Nat) {r : Root} {p : Option Params} {s : Bool}
    {t : Nat × BTree × List C} {q : Nat} (hw : m.vars w = some r) (hx : a.vars w = some ⟨p, s, some t⟩)
    (hvars : m'.vars = Function.update (Function.update m.vars w (some { r with gen := none })) v (some r))
    (hmesh : m'.meshes = m.meshes) (hnext : m'.next = m.next) (hpar : m'.params = m.params) (hcells : m'.cells = m.cells)
    (hblocks : ∀ g, (∀ rv, m.vars v = some rv → v ≠ w → rv.gen ≠ some g) → m'.blocks g = m.blocks g) (hlp : r.lp = some q)
    (hvecs : ∀ q', q' ≠ q → m'.vecs q' = m.vecs q') (hlocs : m'.vecs q = some (locs (some v) r.gen (ps w).length)) :
    Rel m' (Spec.BlockTree.set (Spec.BlockTree.set a w ⟨p, true, none⟩) v ⟨p, true, some t⟩)
      (Function.update (Function.update ps w []) v (ps w)) := by
  have hf := rel_flag h w _ hx
  have hvr := h.var w r _ hw hx
  -- what is left of `w`
  have h1 : Rel { m with vars := Function.update m.vars w (some { r with gen := none }) }
      (Spec.BlockTree.set (Spec.BlockTree.set a w ⟨p, true, some t⟩) w ⟨p, true, none⟩) (Function.update ps w []) := by
    refine rel_upd hf w { r with gen := none } ⟨p, true, none⟩ [] rfl rfl (Nat.le_refl _) (fun c _ hc => hc) (fun u hu c hc => ⟨rfl, by simp⟩)
      (fun u hu r2 g hr2 hg2 => ⟨rfl, by simp⟩) (fun u hu r2 x2 q' hr2 hx2 ht hq' => ⟨rfl, fun e => (e rfl).elim⟩)
      (fun u hu r2 x2 q' hr2 hx2 hq' => ⟨rfl, fun e => ⟨shared_of hf hu hw hr2 hx2 e hq', rfl⟩⟩) ?_
    exact ⟨hvr.params, nofun, hvr.lp, hvr.leaf, nofun, fun _ => ⟨rfl, rfl⟩, nofun⟩
  rw [show Spec.BlockTree.set (Spec.BlockTree.set a w ⟨p, true, some t⟩) w ⟨p, true, none⟩ = Spec.BlockTree.set a w ⟨p, true, none⟩ by
    simp [Spec.BlockTree.set]] at h1
  -- facts about other variables
  have hoth : ∀ u r2, u ≠ w → ({ m with vars := Function.update m.vars w (some { r with gen := none }) } : Mem K E C).vars u = some r2 →
      m.vars u = some r2 := fun u r2 hu hr2 => by simpa [Function.update_of_ne hu] using hr2
  refine rel_upd h1 v r ⟨p, true, some t⟩ (ps w) hmesh hvars (Nat.le_of_eq hnext.symm) (fun c _ hc => by rw [hcells]; exact hc)
    (fun u hu c hc => ?_) (fun u hu r2 g hr2 hg2 => ?_) (fun u hu r2 x2 q' hr2 hx2 ht hq' => ?_) (fun u hu r2 x2 q' hr2 hx2 hq' => ?_) ?_
  · have huw : u ≠ w := fun e => by rw [e, Function.update_self] at hc; cases hc
    rw [Function.update_of_ne huw] at hc
    exact ⟨by rw [hcells], fun hc' => huw (h.cell u w c hc hc')⟩
  · have huw : u ≠ w := fun e => by
      rw [e] at hr2
      simp only [Function.update_self, Option.some.injEq] at hr2
      rw [← hr2] at hg2
      cases hg2
    have hr2' := hoth u r2 huw hr2
    refine ⟨hblocks g fun rv hrv _ e => hu (h.gen u v r2 rv g hr2' hrv hg2 e), fun e => huw (h.gen u w r2 r g hr2' hw hg2 e)⟩
  · have huw : u ≠ w := fun e => by
      rw [e] at hx2
      simp only [Spec.BlockTree.set, Function.update_self, Option.some.injEq] at hx2
      rw [← hx2] at ht
      exact ht rfl
    have hr2' := hoth u r2 huw hr2
    have hx2' : a.vars u = some x2 := by simpa [Spec.BlockTree.set, Function.update_of_ne huw] using hx2
    have hne : q' ≠ q := fun e => huw (h.lp u w r2 r x2 _ q hr2' hw hx2' hx ht (by simp) (by rw [hq', e]) hlp)
    exact ⟨hvecs q' hne, fun _ e => by rw [hlp] at e; cases e; exact hne rfl⟩
  · refine ⟨by rw [hpar], fun e => ⟨?_, rfl⟩⟩
    by_cases huw : u = w
    · subst huw
      simp only [Spec.BlockTree.set, Function.update_self, Option.some.injEq] at hx2
      rw [← hx2]
    · have hr2' := hoth u r2 huw hr2
      have hx2' : a.vars u = some x2 := by simpa [Spec.BlockTree.set, Function.update_of_ne huw] using hx2
      exact shared_of h huw hw hr2' hx2' e hq'
  · refine ⟨?_, fun g hg => by rw [hnext]; exact hvr.gen g hg, fun q' hq' => by rw [hnext]; exact hvr.lp q' hq',
      fun c hc => by rw [hnext, hcells]; exact hvr.leaf c hc, fun c hc => by rw [hnext]; exact hvr.own c hc, (by simp), fun k bt cs e => ?_⟩
    · rcases hvr.params with e | ⟨q', pp, e1, e2, e3, e4⟩
      · exact .inl e
      · exact .inr ⟨q', pp, e1, by rw [hnext]; exact e2, by rw [hpar]; exact e3, e4⟩
    · cases e
      obtain ⟨h2, -⟩ := hvr.tree k bt cs rfl
      refine ⟨h2.mono (fun _ _ => by rw [hcells]) fun g hg => hblocks g fun rv hrv hvw e => hvw (h.gen v w rv r g hrv hw e hg), q, hlp, hlocs⟩

theorem rel_destroy {m : Mem K E C} {a : Vals K E C} {ps} (h : Rel m a ps) (v : Nat) {r : Root} (hr : m.vars v = some r) :
    Rel { freeRoot m r with vars := Function.update m.vars v none } { a with vars := Function.update a.vars v none } (Function.update ps v []) := by
  have hm : ∀ w, w ≠ v → ∀ r', Function.update m.vars v none w = some r' → m.vars w = some r' := fun w hw r' e => by
    rwa [Function.update_of_ne hw] at e
  have ha : ∀ w, w ≠ v → ∀ x, Function.update a.vars v none w = some x → a.vars w = some x := fun w hw r' e => by
    rwa [Function.update_of_ne hw] at e
  have hne : ∀ w r', Function.update m.vars v none w = some r' → w ≠ v := fun w r' e hw => by
    rw [hw, Function.update_self] at e; cases e
  rw [freeRoot_eq]
  refine ⟨h.meshes, fun w => ?_, fun w r' x hr' hx => ?_, fun w hw => ?_, fun w u r1 r2 g h1 h2 => ?_, fun w u r1 r2 x x2 q h1 h2 h3 h4 => ?_,
    fun w u c hc hc2 => ?_, fun w u r1 r2 x q h1 h2 h3 => ?_⟩
  · by_cases e : w = v
    · simp [e]
    · simp only [Function.update_of_ne e]; exact h.dom w
  · have hw := hne w r' hr'
    have h1 := h.var w r' x (hm w hw r' hr') (ha w hw x hx)
    rw [Function.update_of_ne hw]
    refine ⟨h1.params, h1.gen, h1.lp, h1.leaf, h1.own, h1.notree, fun k bt cs ht => ?_⟩
    obtain ⟨h2, h3⟩ := h1.tree k bt cs ht
    exact ⟨h2.mono (fun _ _ => rfl) fun g hg => freeRoot_blocks m r g fun e => hw (h.gen w v r' r g (hm w hw r' hr') hr hg e), h3⟩
  · by_cases e : w = v
    · rw [e, Function.update_self]
    · rw [Function.update_of_ne e]
      exact h.nops w (by simpa [Function.update_of_ne e] using hw)
  · exact h.gen w u r1 r2 g (hm w (hne w r1 h1) r1 h1) (hm u (hne u r2 h2) r2 h2)
  · exact h.lp w u r1 r2 x x2 q (hm w (hne w r1 h1) r1 h1) (hm u (hne u r2 h2) r2 h2) (ha w (hne w r1 h1) x h3) (ha u (hne u r2 h2) x2 h4)
  · have e : w ≠ v := fun e => by rw [e, Function.update_self] at hc; cases hc
    have e2 : u ≠ v := fun e => by rw [e, Function.update_self] at hc2; cases hc2
    rw [Function.update_of_ne e] at hc
    rw [Function.update_of_ne e2] at hc2
    exact h.cell w u c hc hc2
  · exact h.par w u r1 r2 x q (hm w (hne w r1 h1) r1 h1) (hm u (hne u r2 h2) r2 h2) (ha w (hne w r1 h1) x h3)

/-- One operation. -/
theorem step_rel [NormedAddCommGroup E] (new : C) {m : Mem K E C} {a a' : Vals K E C} {ps} (h : Rel m a ps) (op : Op K E C)
    (hs : Spec.BlockTree.step new a op = some a') : ∃ m' ps', step new m op = some m' ∧ Rel m' a' ps' := by
  cases op with
  | meshNew k d =>
    simp only [Spec.BlockTree.step] at hs
    split at hs
    · rename_i hk
      cases hs
      rw [← h.meshes] at hk
      exact ⟨{ m with meshes := Function.update m.meshes k (some (d, true)) }, ps, by simp only [step, hk], by rw [← h.meshes]; exact rel_mesh h _⟩
    · cases hs
  | meshFree k =>
    simp only [Spec.BlockTree.step] at hs
    split at hs
    · rename_i d hk
      cases hs
      rw [← h.meshes] at hk
      exact ⟨{ m with meshes := Function.update m.meshes k (some (d, false)) }, ps, by simp only [step, hk], by rw [← h.meshes]; exact rel_mesh h _⟩
    · cases hs
  | default v =>
    simp only [Spec.BlockTree.step] at hs
    split at hs
    · rename_i hv
      cases hs
      refine ⟨{ m with vars := Function.update m.vars v (some defaultRoot) }, Function.update ps v [], by simp only [step, rel_none h hv], ?_⟩
      exact rel_upd h v _ _ [] rfl rfl (Nat.le_refl _) (fun _ _ hc => hc) (fun _ _ _ _ => ⟨rfl, by simp⟩) (fun _ _ _ _ _ _ => ⟨rfl, by simp [defaultRoot]⟩)
        (fun _ _ _ _ _ _ _ _ _ => ⟨rfl, fun e => (e rfl).elim⟩) (fun _ _ _ _ _ _ _ _ => ⟨rfl, fun e => by cases e⟩) ((default_rel m v).vars _)
    · cases hs
  | build v k deg =>
    simp only [Spec.BlockTree.step] at hs
    split at hs
    · rename_i hv
      rw [Option.map_eq_some_iff] at hs
      obtain ⟨x', hb, rfl⟩ := hs
      obtain ⟨m', r', ps', h1, h2⟩ := rel_init new h v k deg (default_rel m v) hb (fun _ _ _ _ _ _ => by simp [defaultRoot])
        (fun _ _ _ _ _ _ _ => by simp [defaultRoot])
      exact ⟨{ m' with vars := Function.update m'.vars v (some r') }, ps', by simp only [step, rel_none h hv, h1, Option.bind_eq_bind, Option.bind_some], h2⟩
    · cases hs
  | setParams v eta ml =>
    simp only [Spec.BlockTree.step] at hs
    split at hs
    · rename_i x hv
      cases hs
      obtain ⟨r, hr, hvr⟩ := rel_some h hv
      have b := newParams_below m ⟨eta, ml, none⟩
      refine ⟨{ (setParameters m r eta ml).1 with vars := Function.update (setParameters m r eta ml).1.vars v (some (setParameters m r eta ml).2) },
        Function.update ps v (ps v), by simp only [step, hr, Option.bind_eq_bind, Option.bind_some], ?_⟩
      refine rel_upd h v (setParameters m r eta ml).2 _ (ps v) rfl rfl b.next (fun _ _ hc => hc) (fun w hw c hc => ⟨rfl, fun hc' => hw (h.cell w v c hc hc')⟩)
        (fun w hw r2 g hr2 hg2 => ⟨rfl, fun e => hw (h.gen w v r2 r g hr2 hr hg2 e)⟩)
        (fun w hw r2 x2 q hr2 hx2 ht hq => ⟨rfl, fun ht' e => hw (h.lp w v r2 r x2 x q hr2 hr hx2 hv ht ht' hq e)⟩)
        (fun w hw r2 x2 q hr2 hx2 hq => ?_) ((setParameters_rel hvr eta ml).vars _)
      have hlt := par_lt h hr2 hx2 hq
      exact ⟨b.params q hlt, fun e => by
        have : m.next = q := Option.some.inj e
        omega⟩
    · cases hs
  | init v k deg =>
    simp only [Spec.BlockTree.step] at hs
    split at hs
    · rename_i x hv
      rw [Option.map_eq_some_iff] at hs
      obtain ⟨x', hb, rfl⟩ := hs
      obtain ⟨r, hr, hvr⟩ := rel_some h hv
      obtain ⟨m', r', ps', h1, h2⟩ := rel_init new h v k deg hvr hb (fun w hw r2 g hr2 hg2 e => hw (h.gen w v r2 r g hr2 hr hg2 e))
        (fun hsh w hw r2 q hr2 hq2 e => hw (h.par v w r r2 x q hr hr2 hv hsh e hq2).symm)
      exact ⟨{ m' with vars := Function.update m'.vars v (some r') }, ps', by simp only [step, hr, h1, Option.bind_eq_bind, Option.bind_some], h2⟩
    · cases hs
  | copy v w =>
    simp only [Spec.BlockTree.step] at hs
    split at hs
    · rename_i p s t hv hw
      split at hs
      case isFalse => cases hs
      rename_i hal
      cases hs
      obtain ⟨r, hr, hvr⟩ := rel_some h hw
      obtain ⟨m', r', p', q, h1, b, h2, h3, h4, h5, h6, h7, h8, h9, h10⟩ := copyRoot_eq (k := t.1) (bt := t.2.1) (cs := t.2.2) hvr rfl
        (by rw [h.meshes]; exact hal) (some v)
      refine ⟨{ m' with vars := Function.update m'.vars v (some r') }, Function.update ps v p',
        by simp only [step, rel_none h hv, hr, h1, Option.bind_eq_bind, Option.bind_some], ?_⟩
      exact rel_copied h v w hr hw (by rw [← b.vars]) b.meshes b.next b.params b.cells (fun g hg _ _ _ _ _ => b.blocks g hg) b.vecs h2
        (h3.mono (fun _ _ => rfl) fun _ _ => rfl) h4 h5 h6 h7 h8 h9 h10
    · cases hs
  | move v w =>
    simp only [Spec.BlockTree.step] at hs
    split at hs
    · rename_i p s t hv hw
      split at hs
      case isFalse => cases hs
      rename_i hal
      cases hs
      obtain ⟨r, hr, hvr⟩ := rel_some h hw
      obtain ⟨h1, q, h2, h3⟩ := hvr.tree t.1 t.2.1 t.2.2 rfl
      let m1 : Mem K E C := { m with vars := Function.update m.vars w (some { r with gen := none }) }
      have h1' : Shape m1 (ps w) r t.1 t.2.1 t.2.2 := h1.mono (fun _ _ => rfl) fun _ _ => rfl
      have hup := shape_update h1' (by rw [show m1.meshes = m.meshes from rfl, h.meshes]; exact hal) (some v) q h2
      refine ⟨{ m1 with vecs := Function.update m1.vecs q (some (locs (some v) r.gen (ps w).length)), vars := Function.update m1.vars v (some r) }, _,
        ?_, rel_moved h v w hr hw rfl rfl rfl rfl rfl (fun _ _ => rfl) h2 (fun q' e => Function.update_of_ne e _ _) (Function.update_self ..)⟩
      simp only [step, rel_none h hv, moveRoot, hr, Option.bind_eq_bind, Option.bind_some]
      change ((updateLeafPointers m1 (some v) r).bind _).bind _ = _
      rw [hup]
      rfl
    · cases hs
  | assign v w =>
    simp only [Spec.BlockTree.step] at hs
    split at hs
    · rename_i y p s t hv hw
      split at hs
      case isFalse => cases hs
      rename_i hal
      cases hs
      obtain ⟨r, hr, hvr⟩ := rel_some h hw
      obtain ⟨rv, hrv, hvv⟩ := rel_some h hv
      obtain ⟨m', r', p', q, h1, b, h2, h3, h4, h5, h6, h7, h8, h9, h10⟩ := copyRoot_eq (k := t.1) (bt := t.2.1) (cs := t.2.2) hvr rfl
        (by rw [h.meshes]; exact hal) none
      let m1 : Mem K E C := { m' with vars := Function.update m'.vars v (some r') }
      have h3' : Shape m1 p' r' t.1 t.2.1 t.2.2 := h3.mono (fun _ _ => rfl) fun _ _ => rfl
      have hup := shape_update h3' (by rw [show m1.meshes = m'.meshes from rfl, b.meshes, h.meshes]; exact hal) (some v) q h4
      let m2 : Mem K E C := { m1 with vecs := Function.update m1.vecs q (some (locs (some v) r'.gen p'.length)) }
      have hfree := freeRoot_eq m2 rv
      refine ⟨freeRoot m2 rv, Function.update ps v p', ?_, ?_⟩
      · simp only [step, hr, h1, Option.bind_eq_bind, Option.bind_some, swapRoot, b.vars, hrv]
        rw [← b.vars]
        change (updateLeafPointers m1 (some v) r').bind _ = _
        rw [hup]
        rfl
      · rw [hfree]
        refine rel_copied h v w hr hw (by rw [← b.vars]) b.meshes b.next b.params b.cells (fun g hg u r2 hu hr2 hg2 => ?_) (fun q' hq' => ?_) h2
          (h3.mono (fun _ _ => rfl) fun g hg => ?_) h4 (Function.update_self ..) h6 h7 h8 h9 h10
        · exact (freeRoot_blocks m2 rv g fun e => hu (h.gen u v r2 rv g hr2 hrv hg2 e)).trans (b.blocks g hg)
        · exact (Function.update_of_ne (by omega) _ _).trans (b.vecs q' hq')
        · refine freeRoot_blocks m2 rv g fun e => ?_
          have e1 := (h9 g hg).1
          have e2 := hvv.gen g e
          omega
    · cases hs
  | moveAssign v w =>
    simp only [Spec.BlockTree.step] at hs
    split at hs
    · rename_i y p s t hv hw
      split at hs
      case isFalse => cases hs
      rename_i hal
      cases hs
      obtain ⟨r, hr, hvr⟩ := rel_some h hw
      obtain ⟨rv, hrv, hvv⟩ := rel_some h hv
      obtain ⟨h1, q, h2, h3⟩ := hvr.tree t.1 t.2.1 t.2.2 rfl
      let m1 : Mem K E C := { m with vars := Function.update m.vars w (some { r with gen := none }) }
      have h1' : Shape m1 (ps w) r t.1 t.2.1 t.2.2 := h1.mono (fun _ _ => rfl) fun _ _ => rfl
      have hal' : ∃ d, m.meshes t.1 = some (d, true) := by rw [h.meshes]; exact hal
      have hup := shape_update h1' hal' none q h2
      let m2 : Mem K E C := { m1 with vecs := Function.update m1.vecs q (some (locs none r.gen (ps w).length)) }
      obtain ⟨rv', hrv', hvg⟩ : ∃ rv', m2.vars v = some rv' ∧ ((v = w ∧ rv'.gen = none) ∨ (v ≠ w ∧ rv' = rv)) := by
        by_cases e : v = w
        · exact ⟨{ r with gen := none }, by simp [m2, m1, e], .inl ⟨e, rfl⟩⟩
        · exact ⟨rv, by simp [m2, m1, Function.update_of_ne e, hrv], .inr ⟨e, rfl⟩⟩
      let m3 : Mem K E C := { m2 with vars := Function.update m2.vars v (some r) }
      have h3' : Shape m3 (ps w) r t.1 t.2.1 t.2.2 := h1.mono (fun _ _ => rfl) fun _ _ => rfl
      have hup3 := shape_update h3' hal' (some v) q h2
      let m4 : Mem K E C := { m3 with vecs := Function.update m3.vecs q (some (locs (some v) r.gen (ps w).length)) }
      have hfree := freeRoot_eq m4 rv'
      refine ⟨freeRoot m4 rv', Function.update (Function.update ps w []) v (ps w), ?_, ?_⟩
      rotate_left
      · rw [hfree]
        refine rel_moved h v w hr hw rfl rfl rfl rfl rfl (fun g hg => ?_) h2 (fun q' e => ?_) (Function.update_self ..)
        · refine freeRoot_blocks m4 rv' g fun e => ?_
          rcases hvg with ⟨-, e1⟩ | ⟨e1, e2⟩
          · rw [e1] at e; cases e
          · rw [e2] at e; exact hg rv hrv e1 e
        · change Function.update (Function.update m.vecs q _) q _ q' = _
          rw [Function.update_of_ne e, Function.update_of_ne e]
      · simp only [step, moveRoot, hr, Option.bind_eq_bind, Option.bind_some]
        change ((updateLeafPointers m1 none r).bind _).bind _ = _
        rw [hup]
        simp only [Option.bind_some, swapRoot, Option.bind_eq_bind]
        change (m2.vars v).bind _ = _
        rw [hrv', Option.bind_some]
        change (updateLeafPointers m3 (some v) r).bind _ = _
        rw [hup3]
        rfl
    · cases hs
  | write v i y =>
    simp only [Spec.BlockTree.step] at hs
    split at hs
    · rename_i p s k bt cs hv
      split at hs
      case isFalse => cases hs
      rename_i hi
      cases hs
      obtain ⟨r, hr, hvr⟩ := rel_some h hv
      obtain ⟨h1, q, h2, h3⟩ := hvr.tree k bt cs rfl
      have hi' : i < (ps v).length := by rw [h1.vals.length_eq]; exact hi
      obtain ⟨l, hl1, hl2⟩ := leafAt_locs hr h1 i hi'
      have hval : m.cells (ps v)[i] = some cs[i] := (List.forall₂_iff_get.1 h1.vals).2 i hi' hi
      refine ⟨{ m with cells := Function.update m.cells (ps v)[i] (some y) }, Function.update ps v (ps v), ?_, ?_⟩
      · simp only [step, writeLeaf, hr, h2, h3, hl1, hl2, hval, Option.bind_eq_bind, Option.bind_some]
      · have hsome : ∀ c, (m.cells c).isSome → ((Function.update m.cells (ps v)[i] (some y)) c).isSome := fun c hc => by
          by_cases e : c = (ps v)[i]
          · rw [e, Function.update_self]; rfl
          · rw [Function.update_of_ne e]; exact hc
        refine rel_upd h v r _ (ps v) rfl (by rw [← hr]; simp) (Nat.le_refl _) (fun c _ => hsome c)
          (fun w hw c hc => ⟨?_, fun hc' => hw (h.cell w v c hc hc')⟩)
          (fun w hw r2 g hr2 hg2 => ⟨rfl, fun e => hw (h.gen w v r2 r g hr2 hr hg2 e)⟩)
          (fun w hw r2 x2 q hr2 hx2 ht hq => ⟨rfl, fun ht' e => hw (h.lp w v r2 r x2 _ q hr2 hr hx2 hv ht (by simp) hq e)⟩)
          (fun w hw r2 x2 q hr2 hx2 hq => ⟨rfl, fun e => ⟨shared_of h hw hr hr2 hx2 e hq, ?_⟩⟩) ?_
        · refine Function.update_of_ne (fun e => hw (h.cell w v c hc ?_)) _ _
          rw [e]; exact List.getElem_mem _
        · have := h.par v w r r2 _ q hr hr2 hv
          cases hsd : s with
          | true => rfl
          | false => exact (hw (this hsd e hq).symm).elim
        · refine ⟨hvr.params, hvr.gen, hvr.lp, fun c hc => ⟨(hvr.leaf c hc).1, hsome c (hvr.leaf c hc).2⟩, hvr.own, (by simp), fun k' bt' cs' e => ?_⟩
          cases e
          exact ⟨⟨h1.mesh, h1.nodup, forall2_set h1.vals h1.nodup i hi' y, h1.len, h1.node⟩, q, h2, h3⟩
    · cases hs
  | destroy v =>
    simp only [Spec.BlockTree.step] at hs
    split at hs
    · rename_i x hv
      cases hs
      obtain ⟨r, hr, -⟩ := rel_some h hv
      exact ⟨_, _, by simp only [step, hr, Option.bind_eq_bind, Option.bind_some], rel_destroy h v hr⟩
    · cases hs

theorem run_rel [NormedAddCommGroup E] (new : C) (ops : List (Op K E C)) {m : Mem K E C} {a a' : Vals K E C} {ps} (h : Rel m a ps)
    (hs : Spec.BlockTree.run new a ops = some a') : ∃ m' ps', run new m ops = some m' ∧ Rel m' a' ps' := by
  induction ops generalizing m a ps with
  | nil => cases hs; exact ⟨m, ps, rfl, h⟩
  | cons op ops ih =>
    simp only [Spec.BlockTree.run, List.foldlM_cons, Option.bind_eq_bind, Option.bind_eq_some_iff] at hs
    obtain ⟨a1, h1, h2⟩ := hs
    obtain ⟨m1, ps1, h3, h4⟩ := step_rel new h op h1
    obtain ⟨m', ps', h5, h6⟩ := ih h4 h2
    exact ⟨m', ps', by simp only [run, List.foldlM_cons, h3, Option.bind_eq_bind, Option.bind_some]; exact h5, h6⟩

theorem rel_empty : Rel (Mem.empty : Mem K E C) Vals.empty fun _ => [] :=
  ⟨rfl, fun _ => by simp [Mem.empty, Vals.empty], fun v r x hr => (by cases hr), fun _ _ => rfl, fun v w r r' g hr => (by cases hr),
    fun v w r r' x x' q hr => (by cases hr), fun v w c hc => (by cases hc), fun v w r r' x q hr => (by cases hr)⟩

/-- What is read through the leaf pointers. -/
theorem read_rel {m : Mem K E C} {v ps r x} (hv : m.vars v = some r) (h : VarRel m v ps r x) :
    readParams m v = x.params ∧ ∀ t, x.tree = some t → readLeaves m v = some (Spec.BlockTree.leaves t) := by
  refine ⟨?_, fun t ht => ?_⟩
  · rcases h.params with ⟨e1, e2⟩ | ⟨q, p, e1, -, e2, e3⟩
    · simp [readParams, hv, e1, e2]
    · simp [readParams, hv, e1, e2, e3]
  · obtain ⟨k, bt, cs⟩ := t
    obtain ⟨h1, q, h2, h3⟩ := h.tree k bt cs ht
    simp only [readLeaves, hv, h2, h3, Option.bind_eq_bind, Option.bind_some]
    refine mapM_of_forall2 ?_
    obtain ⟨cc, nr, nc, sons, e1, e2, e3, e4⟩ := h1.node
    have hlen := h1.len
    have hval := List.forall₂_iff_get.1 h1.vals
    by_cases hcc : cc = Adm.refine
    · obtain ⟨-, -, g, e5, e6⟩ := e3 hcc
      subst hcc
      rw [e1, leafPointers_refine] at hlen
      simp only [locs, e5, Spec.BlockTree.leaves, e1, leafPointers_refine]
      rw [List.forall₂_iff_get]
      have hl := hval.1
      refine ⟨by simp; omega, fun i i1 i2 => ?_⟩
      have i3 : i < ps.length := by simpa using i1
      have i4 : i < (blockLeaves nr nc sons).length := by omega
      have i5 : i < cs.length := by omega
      have hc : m.cells ps[i] = some cs[i] := hval.2 i i3 i5
      simp [readAt, e6, i3, i4, hc]
    · obtain ⟨e5, c, e6, e7⟩ := e4 hcc
      subst e7
      have hl : cs.length = 1 := hval.1.symm
      obtain ⟨y, rfl⟩ := List.length_eq_one_iff.1 hl
      have hc : m.cells c = some y := hval.2 0 (by simp) (by simp)
      simp only [locs, e5, Spec.BlockTree.leaves, e1, leafPointers, if_neg hcc, List.map_cons, List.map_nil, List.zip_cons_cons, List.zip_nil_left]
      refine .cons ?_ .nil
      simp [readAt, hv, h1.mesh, e2, e6, hc, infoOf, BTree.cluster1, BTree.cluster2, BTree.rows, BTree.cols, BTree.cc]

end BTHandle
open Bembel.BlockTree Bembel.BlockCluster BTHandle

variable {K E C : Type} [NormedAddCommGroup E]

/-- **C78**: for every history of operations on block cluster trees that is meaningful for values, the program has no undefined behaviour,
and every variable reads its own parameters and, through its leaf pointers, exactly the leaves of its own tree, in the order of the tree
and with the values last written to them: copies do not share leaves, and the leaf pointers follow moves and assignments. -/
theorem C78_trees_partial (new : C) (ops : List (Op K E C)) (a : Spec.BlockTree.Vals K E C)
    (h : Spec.BlockTree.run new .empty ops = some a) :
    ∃ m, run new .empty ops = some m ∧ ∀ v x, a.vars v = some x →
      readParams m v = x.params ∧ ∀ t, x.tree = some t → readLeaves m v = some (Spec.BlockTree.leaves t) := by
  obtain ⟨m, ps, h1, h2⟩ := run_rel new ops rel_empty h
  refine ⟨m, h1, fun v x hx => ?_⟩
  obtain ⟨r, hr, hvr⟩ := rel_some h2 hx
  exact read_rel hr hvr

theorem BTHandle.run_append (new : C) (m : Mem K E C) (l l' : List (Op K E C)) : run new m (l ++ l') = (run new m l).bind fun m' => run new m' l' := by
  simp [run, List.foldlM_append]

theorem BTHandle.spec_append (new : C) (a : Spec.BlockTree.Vals K E C) (l l' : List (Op K E C)) :
    Spec.BlockTree.run new a (l ++ l') = (Spec.BlockTree.run new a l).bind fun m' => Spec.BlockTree.run new m' l' := by
  simp [Spec.BlockTree.run, List.foldlM_append]

theorem BTHandle.spec_cons (new : C) (a : Spec.BlockTree.Vals K E C) (o : Op K E C) (l : List (Op K E C)) :
    Spec.BlockTree.run new a (o :: l) = (Spec.BlockTree.step new a o).bind fun m' => Spec.BlockTree.run new m' l := rfl

/-- Default constructed variables. -/
theorem BTHandle.spec_defaults (new : C) (n : Nat) (a : Spec.BlockTree.Vals K E C) (h : ∀ v, a.vars v = none) :
    ∃ a', Spec.BlockTree.run new a ((List.range n).map .default) = some a' ∧ a'.meshes = a.meshes ∧
      ∀ v, a'.vars v = if v < n then some ⟨none, false, none⟩ else none := by
  induction n with
  | zero => exact ⟨a, rfl, rfl, fun v => by simp [h v]⟩
  | succ n ih =>
    obtain ⟨a', h1, h2, h3⟩ := ih
    have hn : a'.vars n = none := by rw [h3, if_neg (Nat.lt_irrefl _)]
    refine ⟨Spec.BlockTree.set a' n ⟨none, false, none⟩, ?_, h2, fun v => ?_⟩
    · rw [List.range_succ, List.map_append, spec_append, h1, Option.bind_some, List.map_singleton, spec_cons]
      simp only [Spec.BlockTree.step, hn]
      rfl
    · by_cases e : v = n
      · subst e
        simp [Spec.BlockTree.set]
      · simp only [Spec.BlockTree.set, Function.update_of_ne e, h3]
        congr 1
        simp only [eq_iff_iff]
        omega

/-- Assigning the tree of variable `n` to the others. -/
theorem BTHandle.spec_assigns (new : C) (n : Nat) (p : Option Params) (t : Nat × BTree × List C) (a : Spec.BlockTree.Vals K E C) (s : Bool)
    (hn : a.vars n = some ⟨p, s, some t⟩) (hal : Spec.BlockTree.alive a t.1) (hd : ∀ v < n, a.vars v ≠ none) (j : Nat) (hj : j ≤ n) :
    ∃ a' s', Spec.BlockTree.run new a ((List.range j).map fun v => .assign v n) = some a' ∧ a'.meshes = a.meshes ∧
      a'.vars n = some ⟨p, s', some t⟩ ∧ (∀ v < j, a'.vars v = some ⟨p, true, some t⟩) ∧ ∀ v < n, a'.vars v ≠ none := by
  induction j with
  | zero => exact ⟨a, s, rfl, rfl, hn, fun v hv => absurd hv (Nat.not_lt_zero _), hd⟩
  | succ j ih =>
    obtain ⟨a', s', h1, h2, h3, h4, h5⟩ := ih (by omega)
    obtain ⟨x, hx⟩ := Option.ne_none_iff_exists'.1 (h5 j (by omega))
    refine ⟨Spec.BlockTree.set (Spec.BlockTree.set a' n ⟨p, true, some t⟩) j ⟨p, true, some t⟩, true, ?_, h2, ?_, fun v hv => ?_, fun v hv => ?_⟩
    · have hal' : Spec.BlockTree.alive a' t.1 := by
        obtain ⟨d, hd⟩ := hal
        exact ⟨d, by rw [h2]; exact hd⟩
      rw [List.range_succ, List.map_append, spec_append, h1, Option.bind_some, List.map_singleton, spec_cons]
      simp only [Spec.BlockTree.step, hx, h3, if_pos hal']
      rfl
    · have : n ≠ j := by omega
      simp [Spec.BlockTree.set, Function.update_of_ne this]
    · by_cases e : v = j
      · simp [Spec.BlockTree.set, e]
      · have e2 : v ≠ n := by omega
        simp only [Spec.BlockTree.set, Function.update_of_ne e, Function.update_of_ne e2]
        exact h4 v (by omega)
    · by_cases e : v = j
      · simp [Spec.BlockTree.set, e]
      · have e2 : v ≠ n := by omega
        simp only [Spec.BlockTree.set, Function.update_of_ne e, Function.update_of_ne e2]
        exact h5 v hv

/-- Writes to the leaves. -/
theorem BTHandle.spec_writes (new : C) (n : Nat) (p : Option Params) (k : Nat) (bt : BTree) (len : Nat) (ws : List (Nat × Nat × C))
    (hw : ∀ w ∈ ws, w.1 < n ∧ w.2.1 < len) (a : Spec.BlockTree.Vals K E C) (f : Nat → List C) (hf : ∀ v, (f v).length = len)
    (h : ∀ v < n, a.vars v = some ⟨p, true, some (k, bt, f v)⟩) :
    ∃ a', Spec.BlockTree.run new a (ws.map fun w => .write w.1 w.2.1 w.2.2) = some a' ∧
      ∀ v < n, a'.vars v = some ⟨p, true, some (k, bt, ws.foldl (fun cs w => if w.1 = v then cs.set w.2.1 w.2.2 else cs) (f v))⟩ := by
  induction ws generalizing a f with
  | nil => exact ⟨a, rfl, h⟩
  | cons w ws ih =>
    obtain ⟨hw1, hw2⟩ := hw w (by simp)
    let f' : Nat → List C := fun v => if w.1 = v then (f v).set w.2.1 w.2.2 else f v
    obtain ⟨a', h1, h2⟩ := ih (fun w' hw' => hw w' (by simp [hw'])) (Spec.BlockTree.set a w.1 ⟨p, true, some (k, bt, (f w.1).set w.2.1 w.2.2)⟩) f'
      (fun v => by simp only [f']; split <;> simp [hf]) (fun v hv => by
        by_cases e : w.1 = v
        · simp [Spec.BlockTree.set, f', e]
        · simp only [Spec.BlockTree.set, Function.update_of_ne (Ne.symm e), f', if_neg e]
          exact h v hv)
    refine ⟨a', ?_, h2⟩
    rw [List.map_cons, spec_cons]
    simp only [Spec.BlockTree.step, h w.1 hw1]
    rw [if_pos (by rw [hf]; exact hw2)]
    exact h1

/-- C78: the component trees of a compressed matrix (`init_H2Matrix`, H2Matrix.hpp l.107-114, l.141-246): `n` default constructed trees are
assigned the same tree, which is then destroyed, and their leaves are written in any order.  Tree `v` then reads, for every leaf,
what was last written to this leaf of tree `v`: filling one component does not touch the others. -/
theorem C78_component_trees (new : C) (d : MeshData K E) (n deg : Nat) (ws : List (Nat × Nat × C)) (bt : BTree)
    (hbt : bt = initBlockClusterTree d.t d.B (8 / 5) 1) (hw : ∀ w ∈ ws, w.1 < n ∧ w.2.1 < (leafPointers bt).length) :
    ∃ m, run new .empty (.meshNew 0 d :: ((List.range n).map .default ++ .build n 0 deg :: ((List.range n).map (fun v => .assign v n) ++
        .destroy n :: ws.map fun w => .write w.1 w.2.1 w.2.2))) = some m ∧
      ∀ v < n, readLeaves m v = some (((leafPointers bt).map (infoOf 0)).zip
        (ws.foldl (fun cs w => if w.1 = v then cs.set w.2.1 w.2.2 else cs) (List.replicate (leafPointers bt).length new))) := by
  have hspec : ∃ a p, Spec.BlockTree.run new .empty (.meshNew 0 d :: ((List.range n).map .default ++ .build n 0 deg ::
      ((List.range n).map (fun v => .assign v n) ++ .destroy n :: ws.map fun w => .write w.1 w.2.1 w.2.2))) = some a ∧
      ∀ v < n, a.vars v = some ⟨p, true, some (0, bt, ws.foldl (fun cs w => if w.1 = v then cs.set w.2.1 w.2.2 else cs)
        (List.replicate (leafPointers bt).length new))⟩ := by
    let a0 : Spec.BlockTree.Vals K E C := ⟨Function.update (fun _ => none) 0 (some (d, true)), fun _ => none⟩
    obtain ⟨a1, h1, h2, h3⟩ := spec_defaults new n a0 fun _ => rfl
    have hn : a1.vars n = none := by rw [h3, if_neg (Nat.lt_irrefl _)]
    have hm : a1.meshes 0 = some (d, true) := by rw [h2]; rfl
    have hb : Spec.BlockTree.build new a1 ⟨none, false, none⟩ 0 deg =
        some ⟨some ⟨8 / 5, 1, some (0, deg)⟩, false, some (0, bt, List.replicate (leafPointers bt).length new)⟩ := by
      simp only [Spec.BlockTree.build, hm, Option.getD_none]
      rw [if_pos ⟨fun _ => rfl, nofun⟩, hbt]
    let x : Spec.BlockTree.Val C := ⟨some ⟨8 / 5, 1, some (0, deg)⟩, false, some (0, bt, List.replicate (leafPointers bt).length new)⟩
    obtain ⟨a3, s, h4, h5, h6, h7, -⟩ := spec_assigns new n x.params (0, bt, List.replicate (leafPointers bt).length new)
      (Spec.BlockTree.set a1 n x) false (by simp [Spec.BlockTree.set, x]) ⟨d, hm⟩ (fun v hv => by
        have : v ≠ n := by omega
        simp only [Spec.BlockTree.set, Function.update_of_ne this, h3, if_pos hv]
        simp) n (Nat.le_refl _)
    obtain ⟨a5, h8, h9⟩ := spec_writes new n x.params 0 bt (leafPointers bt).length ws hw { a3 with vars := Function.update a3.vars n none }
      (fun _ => List.replicate (leafPointers bt).length new) (fun _ => List.length_replicate) (fun v hv => by
        have : v ≠ n := by omega
        simp only [Function.update_of_ne this]
        exact h7 v hv)
    refine ⟨a5, x.params, ?_, h9⟩
    rw [spec_cons]
    simp only [Spec.BlockTree.step, Spec.BlockTree.Vals.empty, Option.bind_some]
    change Spec.BlockTree.run new a0 _ = _
    rw [spec_append, h1, Option.bind_some, spec_cons]
    simp only [Spec.BlockTree.step, hn, hb, Option.map_some, Option.bind_some]
    rw [spec_append, h4, Option.bind_some, spec_cons]
    simp only [Spec.BlockTree.step, h6, Option.bind_some]
    exact h8
  obtain ⟨a, p, h1, h2⟩ := hspec
  obtain ⟨m, h3, h4⟩ := C78_trees_partial new _ a h1
  exact ⟨m, h3, fun v hv => (h4 v _ (h2 v hv)).2 _ rfl⟩

/-- The root of the tree for the default parameters. -/
theorem BTHandle.init_root (d : MeshData K E) (h : 0 < d.t.maxLevel) :
    ∃ sons, initBlockClusterTree d.t d.B (8 / 5) 1 = .node none none (some d.t.nElements) (some d.t.nElements) Adm.refine d.t.nPatches d.t.nPatches sons := by
  have hc : compareCluster d.t d.B (8 / 5) 1 none none = Adm.refine := by
    simp only [compareCluster, clusterLevel]
    rw [if_neg]
    rintro ⟨-, h'⟩
    omega
  rw [initBlockClusterTree, appendSubtree]
  simp only [hc, if_true, clusterSons, List.length_map, List.length_range]
  exact ⟨_, rfl⟩

/-- After building one tree. -/
theorem BTHandle.built (new : C) (d : MeshData K E) (deg : Nat) :
    ∃ (m : Mem K E C) (ps : Nat → List Nat) (a : Spec.BlockTree.Vals K E C), run new .empty [.meshNew 0 d, .build 0 0 deg] = some m ∧ Rel m a ps ∧ a.meshes = Function.update (fun _ : Nat => (none : Option (MeshData K E × Bool))) 0 (some (d, true)) ∧
      a.vars = Function.update (fun _ : Nat => (none : Option (Spec.BlockTree.Val C))) 0 (some ⟨some ⟨8 / 5, 1, some (0, deg)⟩, false, some (0, initBlockClusterTree d.t d.B (8 / 5) 1,
        List.replicate (leafPointers (initBlockClusterTree d.t d.B (8 / 5) 1)).length new)⟩) := by
  have hspec : Spec.BlockTree.run new .empty [.meshNew 0 d, .build 0 0 deg] =
      some ⟨Function.update (fun _ : Nat => (none : Option (MeshData K E × Bool))) 0 (some (d, true)), Function.update (fun _ : Nat => (none : Option (Spec.BlockTree.Val C))) 0 (some ⟨some ⟨8 / 5, 1, some (0, deg)⟩, false,
        some (0, initBlockClusterTree d.t d.B (8 / 5) 1, List.replicate (leafPointers (initBlockClusterTree d.t d.B (8 / 5) 1)).length new)⟩)⟩ := by
    simp only [spec_cons, Spec.BlockTree.step, Spec.BlockTree.Vals.empty, Option.bind_some, Spec.BlockTree.build, Function.update_self,
      Option.getD_none]
    rw [if_pos ⟨fun _ => rfl, nofun⟩]
    rfl
  obtain ⟨m, ps, h1, h2⟩ := run_rel new _ rel_empty hspec
  exact ⟨m, ps, _, h1, h2, rfl, rfl⟩

/-- C78 fails for trees that are built again: a copy shares the parameter object, so that building the copy on another mesh changes the
parameters of the original, among them the pointer its row and column indices are counted from. -/
theorem C78_parameters_violated (new : C) (d d' : MeshData K E) (deg deg' : Nat) (h : 0 < d'.t.maxLevel) :
    ∃ m, run new .empty [.meshNew 0 d, .build 0 0 deg, .meshNew 1 d', .copy 1 0, .init 1 1 deg'] = some m ∧
      readParams m 0 = some ⟨8 / 5, 1, some (1, deg')⟩ := by
  obtain ⟨m, ps, a, h1, h2, h3, h4⟩ := built new d deg
  obtain ⟨m1, ps1, h5, h6⟩ := step_rel new h2 (.meshNew 1 d')
    (a' := { a with meshes := Function.update a.meshes 1 (some (d', true)) }) (by simp [Spec.BlockTree.step, h3])
  obtain ⟨r, hr, hvr⟩ := rel_some h6 (v := 0) (by change a.vars 0 = _; rw [h4]; rfl)
  have hal0 : ∃ dd, m1.meshes 0 = some (dd, true) := ⟨d, by rw [h6.meshes]; simp [h3]⟩
  have hv1 : m1.vars 1 = none := rel_none h6 (by change a.vars 1 = none; rw [h4]; simp)
  obtain ⟨m2, r', p', q', c1, b, c2, c3, c4, c5, c6, c7, c8, c9, c10⟩ := copyRoot_eq hvr rfl hal0 (some 1)
  have hstep : step new m1 (.copy 1 0) = some { m2 with vars := Function.update m2.vars 1 (some r') } := by
    simp only [step, hv1, hr, c1, Option.bind_eq_bind, Option.bind_some]
  obtain ⟨m3, ps3, h7, h8⟩ := step_rel new h6 (.copy 1 0) (a' := Spec.BlockTree.set (Spec.BlockTree.set
      { a with meshes := Function.update a.meshes 1 (some (d', true)) } 0 ⟨some ⟨8 / 5, 1, some (0, deg)⟩, true, some (0, initBlockClusterTree d.t d.B (8 / 5) 1,
        List.replicate (leafPointers (initBlockClusterTree d.t d.B (8 / 5) 1)).length new)⟩) 1 ⟨some ⟨8 / 5, 1, some (0, deg)⟩, true,
        some (0, initBlockClusterTree d.t d.B (8 / 5) 1, List.replicate (leafPointers (initBlockClusterTree d.t d.B (8 / 5) 1)).length new)⟩)
    (by
      simp only [Spec.BlockTree.step, h4]
      have e : Function.update (fun _ : Nat => (none : Option (Spec.BlockTree.Val C))) 0 (some ⟨some ⟨8 / 5, 1, some (0, deg)⟩, false, some (0, initBlockClusterTree d.t d.B (8 / 5) 1,
        List.replicate (leafPointers (initBlockClusterTree d.t d.B (8 / 5) 1)).length new)⟩) 1 = none := by simp
      simp only [e, Function.update_self]
      split
      · rfl
      · rename_i hn
        exact (hn ⟨d, by simp [h3]⟩).elim)
  rw [hstep, Option.some_inj] at h7
  subst h7
  have hvr1 := h8.var 1 r' _ (by simp) (by simp [Spec.BlockTree.set]; rfl)
  have hvr2 : VarRel { m2 with vars := Function.update m2.vars 1 (some r') } 1 (ps3 1) r' ⟨some ⟨8 / 5, 1, some (0, deg)⟩, false,
      some (0, initBlockClusterTree d.t d.B (8 / 5) 1, List.replicate (leafPointers (initBlockClusterTree d.t d.B (8 / 5) 1)).length new)⟩ :=
    ⟨hvr1.params, hvr1.gen, hvr1.lp, hvr1.leaf, hvr1.own, hvr1.notree, hvr1.tree⟩
  obtain ⟨sons, hroot⟩ := init_root d' h
  obtain ⟨m4, r4, p4, i1, f, i2, -, -, -, i3⟩ := initRoot_eq new (x := ⟨some ⟨8 / 5, 1, some (0, deg)⟩, false, some (0, initBlockClusterTree d.t d.B (8 / 5) 1,
        List.replicate (leafPointers (initBlockClusterTree d.t d.B (8 / 5) 1)).length new)⟩)
      (x' := ⟨some ⟨8 / 5, 1, some (1, deg')⟩, false, some (1, initBlockClusterTree d'.t d'.B (8 / 5) 1,
        List.replicate (leafPointers (initBlockClusterTree d'.t d'.B (8 / 5) 1)).length new)⟩)
    hvr2
    ⟨Function.update a.meshes 1 (some (d', true)), fun _ => none⟩ h8.meshes 1 deg' (by
      simp only [Spec.BlockTree.build, Function.update_self, Option.getD_some]
      rw [if_pos]
      refine ⟨fun _ => rfl, fun k' t e => ?_⟩
      cases e
      exact ⟨⟨d, by simp [h3]⟩, by rw [hroot]; rfl⟩)
  refine ⟨{ m4 with vars := Function.update m4.vars 1 (some r4) }, ?_, ?_⟩
  · have e : ([.meshNew 0 d, .build 0 0 deg, .meshNew 1 d', .copy 1 0, .init 1 1 deg'] : List (Op K E C)) =
      [.meshNew 0 d, .build 0 0 deg] ++ [.meshNew 1 d', .copy 1 0, .init 1 1 deg'] := rfl
    rw [e, run_append, h1, Option.bind_some]
    simp only [run, List.foldlM_cons, h5, hstep, Option.bind_eq_bind, Option.bind_some, List.foldlM_nil]
    have e2 : step new { m2 with vars := Function.update m2.vars 1 (some r') } (.init 1 1 deg') =
        some { m4 with vars := Function.update m4.vars 1 (some r4) } := by
      simp only [step, Function.update_self, i1, Option.bind_eq_bind, Option.bind_some]
    rw [e2]
    rfl
  · have hq : ∃ q, r.params = some q := by
      rcases hvr.params with ⟨-, e⟩ | ⟨q, _, e, -⟩
      · cases e
      · exact ⟨q, e⟩
    obtain ⟨q, hq⟩ := hq
    have hq4 : r4.params = some q := by
      rcases i3 with ⟨e, -⟩ | ⟨-, e⟩
      · rw [c2, hq] at e; cases e
      · rw [e, c2, hq]
    rcases i2.params with ⟨-, e⟩ | ⟨q2, pp, e1, e2, e3, e4⟩
    · cases e
    · rw [hq4] at e1
      cases e1
      have hv0 : m4.vars 0 = some r := by
        rw [f.vars]
        change Function.update m2.vars 1 (some r') 0 = _
        rw [Function.update_of_ne (by simp), b.vars]
        exact hr
      simp only [readParams, Function.update_of_ne (show (0 : Nat) ≠ 1 by simp), hv0, hq, Option.bind_eq_bind, Option.bind_some, e3]
      exact e4.symm

/-- C78 says nothing about variables that were moved from, and cannot: such a variable shares the vector of leaf pointers with the new owner,
reads its leaves and writes to them. -/
theorem C78_moved_violated (new : C) (d : MeshData K E) (deg : Nat) :
    ∃ m, run new .empty [.meshNew 0 d, .build 0 0 deg, .move 1 0] = some m ∧ readLeaves m 0 = readLeaves m 1 ∧
      ∀ i x, step new m (.write 0 i x) = step new m (.write 1 i x) := by
  obtain ⟨m, ps, a, h1, h2, h3, h4⟩ := built new d deg
  obtain ⟨r, hr, hvr⟩ := rel_some h2 (v := 0) (by rw [h4]; rfl)
  obtain ⟨s1, q, s2, -⟩ := hvr.tree _ _ _ rfl
  have hv1 : m.vars 1 = none := rel_none h2 (by rw [h4]; simp)
  let m1 : Mem K E C := { m with vars := Function.update m.vars 0 (some { r with gen := none }) }
  have hup := shape_update (m := m1) (s1.mono (fun _ _ => rfl) fun _ _ => rfl)
    (by rw [show m1.meshes = m.meshes from rfl, h2.meshes, h3]; exact ⟨d, rfl⟩) (some 1) q s2
  refine ⟨{ m1 with vecs := Function.update m1.vecs q (some (locs (some 1) r.gen (ps 0).length)), vars := Function.update m1.vars 1 (some r) }, ?_, ?_, fun i x => ?_⟩
  · rw [show ([.meshNew 0 d, .build 0 0 deg, .move 1 0] : List (Op K E C)) = [.meshNew 0 d, .build 0 0 deg] ++ [.move 1 0] from rfl, run_append, h1,
      Option.bind_some]
    simp only [run, List.foldlM_cons, List.foldlM_nil, step, hv1, moveRoot, hr, Option.bind_eq_bind, Option.bind_some]
    change (((updateLeafPointers m1 (some 1) r).bind _).bind _).bind _ = _
    rw [hup]
    rfl
  · simp [readLeaves, m1, s2]
  · simp [step, writeLeaf, m1, s2]

/-- A variable that was moved from must not be copied. -/
theorem C78_moved_copy_violated (new : C) (d : MeshData K E) (deg : Nat) (hM : 0 < d.t.maxLevel) (hP : 0 < d.t.nPatches) :
    run new .empty [.meshNew 0 d, .build 0 0 deg, .move 1 0, .copy 2 0] = none := by
  obtain ⟨m, ps, a, h1, h2, h3, h4⟩ := built new d deg
  obtain ⟨r, hr, hvr⟩ := rel_some h2 (v := 0) (by rw [h4]; rfl)
  obtain ⟨s1, q, s2, -⟩ := hvr.tree _ _ _ rfl
  obtain ⟨sons, hroot⟩ := init_root d hM
  have hv1 : m.vars 1 = none := rel_none h2 (by rw [h4]; simp)
  have hv2 : m.vars 2 = none := rel_none h2 (by rw [h4]; simp)
  obtain ⟨cc, nr, nc, sons', e1, e2, e3, -⟩ := s1.node
  rw [hroot] at e1
  simp only [BTree.node.injEq] at e1
  obtain ⟨-, -, -, -, rfl, rfl, rfl, -⟩ := e1
  obtain ⟨e4, e5, -⟩ := e3 rfl
  let m1 : Mem K E C := { m with vars := Function.update m.vars 0 (some { r with gen := none }) }
  have hup := shape_update (m := m1) (s1.mono (fun _ _ => rfl) fun _ _ => rfl)
    (by rw [show m1.meshes = m.meshes from rfl, h2.meshes, h3]; exact ⟨d, rfl⟩) (some 1) q s2
  let m2 : Mem K E C := { m1 with vecs := Function.update m1.vecs q (some (locs (some 1) r.gen (ps 0).length)), vars := Function.update m1.vars 1 (some r) }
  have hmove : step new m (.move 1 0) = some m2 := by
    simp only [step, hv1, moveRoot, hr, Option.bind_eq_bind, Option.bind_some]
    change ((updateLeafPointers m1 (some 1) r).bind _).bind _ = _
    rw [hup]
    rfl
  rw [show ([.meshNew 0 d, .build 0 0 deg, .move 1 0, .copy 2 0] : List (Op K E C)) = [.meshNew 0 d, .build 0 0 deg] ++ [.move 1 0, .copy 2 0] from rfl,
    run_append, h1, Option.bind_some]
  simp only [run, List.foldlM_cons, List.foldlM_nil, hmove, Option.bind_eq_bind, Option.bind_some]
  obtain ⟨m3, c', l1, -⟩ := copyLeaf_eq (m := m2) r.leaf fun c hc => (hvr.leaf c hc).2
  have hz : ¬ d.t.nPatches * d.t.nPatches = 0 := by
    have := Nat.mul_pos hP hP
    omega
  have hv2' : m2.vars 2 = none := by simp [m2, m1, hv2]
  have hv0' : m2.vars 0 = some { r with gen := none } := by simp [m2, m1]
  have hcopy : copyRoot m2 (some 2) { r with gen := none } = none := by
    simp only [copyRoot, copySons, l1, Option.bind_eq_bind, Option.bind_some, updateLeafPointers, leafLocs, e2, if_true, e4, e5, if_neg hz, Option.bind_none]
    simp
  simp only [step, hv2', hv0', hcopy, Option.bind_eq_bind, Option.bind_some, Option.bind_none]

/-- A default constructed variable must neither be copied nor moved: the constructors look at a cluster through a null pointer. -/
theorem C78_default_violated (new : C) :
    run (K := K) (E := E) new .empty [.default 0, .copy 1 0] = none ∧ run (K := K) (E := E) new .empty [.default 0, .move 1 0] = none := by
  refine ⟨?_, ?_⟩ <;>
    simp [run, step, Mem.empty, copyRoot, moveRoot, defaultRoot, copySons, copyLeaf, updateLeafPointers, meshAlive]

/-- Building a tree again on a mesh with more patches moves the sons of the old tree, whose clusters are gone if the old mesh is. -/
theorem C78_rebuild_violated (new : C) (d d' : MeshData K E) (deg : Nat) (hM : 0 < d.t.maxLevel) (hM' : 0 < d'.t.maxLevel)
    (hP : 0 < d.t.nPatches) (hP' : d.t.nPatches < d'.t.nPatches) :
    run new .empty [.meshNew 0 d, .build 0 0 deg, .meshFree 0, .meshNew 1 d', .init 0 1 deg] = none := by
  obtain ⟨m, ps, a, h1, h2, h3, h4⟩ := built new d deg
  obtain ⟨m1, ps1, h5, h6⟩ := step_rel new h2 (.meshFree 0)
    (a' := { a with meshes := Function.update a.meshes 0 (some (d, false)) }) (by simp [Spec.BlockTree.step, h3])
  obtain ⟨m2, ps2, h7, h8⟩ := step_rel new h6 (.meshNew 1 d')
    (a' := { a with meshes := Function.update (Function.update a.meshes 0 (some (d, false))) 1 (some (d', true)) }) (by simp [Spec.BlockTree.step, h3])
  obtain ⟨r, hr, hvr⟩ := rel_some h8 (v := 0) (by change a.vars 0 = _; rw [h4]; rfl)
  obtain ⟨s1, -⟩ := hvr.tree _ _ _ rfl
  obtain ⟨sons, hroot⟩ := init_root d hM
  obtain ⟨sons2, hroot'⟩ := init_root d' hM'
  obtain ⟨cc, nr, nc, sons', e1, e2, e3, -⟩ := s1.node
  rw [hroot] at e1
  simp only [BTree.node.injEq] at e1
  obtain ⟨-, -, -, -, rfl, rfl, rfl, -⟩ := e1
  obtain ⟨-, -, g, e4, e5⟩ := e3 rfl
  rw [show ([.meshNew 0 d, .build 0 0 deg, .meshFree 0, .meshNew 1 d', .init 0 1 deg] : List (Op K E C)) =
    [.meshNew 0 d, .build 0 0 deg] ++ [.meshFree 0, .meshNew 1 d', .init 0 1 deg] from rfl, run_append, h1, Option.bind_some]
  simp only [run, List.foldlM_cons, List.foldlM_nil, h5, h7, Option.bind_eq_bind, Option.bind_some]
  rcases hvr.params with ⟨-, e⟩ | ⟨q, p, p1, -, p2, p3⟩
  · cases e
  cases p3
  have hm0 : m2.meshes 0 = some (d, false) := by rw [h8.meshes]; simp
  have hm1 : m2.meshes 1 = some (d', true) := by rw [h8.meshes]; simp
  have hz : 0 < d.t.nPatches * d.t.nPatches := Nat.mul_pos hP hP
  have hinit : initRoot new m2 (some 0) r 1 deg = none := by
    have he : ensureParameters m2 r = (m2, r) := by simp only [ensureParameters, p1]
    simp only [initRoot, he, p1, p2, meshAlive, hm1, hroot', Option.bind_eq_bind, Option.bind_some, if_true, resizeSons, e4, newVec, e5, hm0]
    simp [hP', hz]
  simp only [step, hr, hinit, Option.bind_eq_bind, Option.bind_some, Option.bind_none]

/-- A history meeting the hypotheses of `C78_trees_partial`, for every mesh: a copy of a tree is changed, assigned to a third variable and the original
is moved. -/
example (new x : C) (d : MeshData K E) (hl : 0 < (leafPointers (initBlockClusterTree d.t d.B (8 / 5) 1)).length) :
    ∃ a t t', Spec.BlockTree.run new .empty [.meshNew 0 d, .build 0 0 2, .default 1, .assign 1 0, .write 1 0 x, .move 2 0] = some a ∧
      (∃ v, a.vars 1 = some v ∧ v.tree = some t) ∧ (∃ v, a.vars 2 = some v ∧ v.tree = some t') ∧ t.2.2[0]? = some x ∧ t'.2.2[0]? = some new := by
  simp only [spec_cons, Spec.BlockTree.step, Spec.BlockTree.Vals.empty, Option.bind_some, Spec.BlockTree.build, Function.update_self,
      Option.getD_none]
  rw [if_pos ⟨fun _ => rfl, nofun⟩]
  simp [Spec.BlockTree.set, Spec.BlockTree.alive, hl, Spec.BlockTree.run]

/-- The uniform refinement of the unit cube, and of a screen with one patch, meet the hypotheses of the theorems about the second mesh. -/
example (B : Mesh.Addr → Util.Ball E) : ∃ t t' : Mesh.Tree ℚ, Mesh.initElementTree (fun a b : Nat => a == b) (fun _ i => i) 1 2 = some t ∧
    0 < t.maxLevel ∧ 0 < t.nPatches ∧ 0 < t'.maxLevel ∧ t.nPatches < t'.nPatches := by
  obtain ⟨t, h1, -, -, h4, h5, -⟩ := tree_facts (K := ℚ) (fun a b : Nat => a == b) (fun _ i => i) 1 2 (by omega)
  obtain ⟨t', -, -, -, h4', h5', -⟩ := tree_facts (K := ℚ) (fun a b : Nat => a == b) (fun _ i => i) 6 2 (by omega)
  exact ⟨t, t', h1, by omega, by omega, by omega, by omega⟩

end Bembel.Props
