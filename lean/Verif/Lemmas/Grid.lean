import Verif.Props.Accumulate

/-! # Lemmas on grids -/

namespace DiffeRT2d
open Spec Props
open Classical

/-! ## Grids -/

theorem forall₂_with_mem {α β : Type*} {R : α → β → Prop} {xs : List α} {ys : List β} (h : List.Forall₂ R xs ys) :
    List.Forall₂ (fun x y => R x y ∧ x ∈ xs) xs ys := by
  induction h with
  | nil => exact .nil
  | cons h1 _ ih => exact .cons ⟨h1, by simp⟩ (ih.imp fun _ _ h => ⟨h.1, by simp [h.2]⟩)

theorem forall₂_zip {α β γ : Type*} {R : α → β → Prop} {xs : List α} {ys : List β} (h : List.Forall₂ R xs ys)
    (ks : List γ) (hk : ks.length = xs.length) : List.Forall₂ (fun xk y => R xk.1 y) (xs.zip ks) ys := by
  induction h generalizing ks with
  | nil => simp
  | cons h1 _ ih =>
    match ks, hk with
    | k :: ks, hk => exact .cons h1 (ih ks (by simpa using hk))

theorem forall₂_of_zip {α β γ : Type*} {R : α × γ → β → Prop} (xs : List α) (ks : List γ) (ys : List β)
    (hk : ks.length = xs.length) (h : List.Forall₂ R (xs.zip ks) ys) :
    List.Forall₂ (fun x y => ∃ k, R (x, k) y) xs ys := by
  induction xs generalizing ks ys with
  | nil => simp at h; subst h; exact .nil
  | cons x xs ih =>
    match ks, hk with
    | k :: ks, hk =>
      cases h with
      | cons h1 h2 => exact .cons ⟨k, h1⟩ (ih ks _ (by simpa using hk) h2)

theorem facc_congr {Key : Type} {s s' : Scene} (h : s.objects = s'.objects) (m : Scene.PathMethod Key)
    (v : Scene.ValidOpts) (f : Scene.PathFun) (t r : V2 F) (acc : F) (l : List (List ℤ × Option Key)) :
    s.facc m v f t r acc l = s'.facc m v f t r acc l := by
  have e1 : ∀ c, s.getInteractingObjects c = s'.getInteractingObjects c := by
    intro c
    have : s.getObject = s'.getObject := by funext i; unfold Scene.getObject; rw [h]
    unfold Scene.getInteractingObjects
    rw [h, this]
  have e2 : ∀ p c os, s.validity v p c os = s'.validity v p c os := by
    intro p c os; unfold Scene.validity; rw [h]
  induction l generalizing acc with
  | nil => rfl
  | cons ck l ih =>
    obtain ⟨c, k⟩ := ck
    unfold Scene.facc
    simp only [e1, e2, ih]

section
variable {Key : Type} (s : Scene) (m : Scene.PathMethod Key) (v : Scene.ValidOpts)

theorem tracePaths_total (hm : KeyIndependent m) (split : Key → ℕ → List Key) (key : Option Key)
    (l : List (NamedPair × List ℤ)) (h : ∀ e ∈ l, ∃ os path valid, s.getInteractingObjects e.2 = .ok os ∧
      (∃ k, m.trace k e.1.1.2 os e.1.2.2 = .ok path) ∧ s.validity v path e.2 os = .ok valid) :
    ∃ ts, s.tracePaths split m v key l = .ok ts := by
  induction l generalizing key with
  | nil => exact ⟨[], rfl⟩
  | cons e l ih =>
    obtain ⟨⟨⟨tk, t⟩, ⟨rk, r⟩⟩, c⟩ := e
    obtain ⟨os, path, valid, h1, ⟨k, h2⟩, h3⟩ := h _ (List.mem_cons_self ..)
    simp only at h1 h2 h3
    rw [hm k (Scene.splitKey split key).2] at h2
    obtain ⟨ts, hts⟩ := ih (Scene.splitKey split key).1 (fun e he => h e (by simp [he]))
    refine ⟨⟨tk, rk, valid, path, c⟩ :: ts, ?_⟩
    unfold Scene.tracePaths
    rw [h1]
    simp only [bind, Except.bind, h2, h3, hts]
    rfl

theorem block_facc (hm : KeyIndependent m) (f : Scene.PathFun) (cs : List (List ℤ))
    (hc : ∀ c ∈ cs, IsCandidate s.objects.length c) (ks : List (Option Key)) (hk : ks.length = cs.length)
    (p : NamedPair) (g : List Scene.Traced) (h : List.Forall₂ (fun c x => SomeTurn s m v (p, c) x) cs g) :
    s.facc m v f p.1.2 p.2.2 0 (cs.zip ks) = .ok (F.sum (g.map (weighted s f p.1.2 p.2.2))) := by
  rw [facc_ok]
  refine ⟨g.map fun x => (objectsAt s x.candidate, x.path, x.valid), ?_, ?_⟩
  · rw [List.forall₂_map_right_iff]
    have h' : List.Forall₂ (fun c x => SomeTurn s m v (p, c) x ∧ c ∈ cs) cs g := forall₂_with_mem h
    refine (forall₂_zip h' ks hk).imp ?_
    rintro ⟨c, k⟩ x ⟨⟨k', e1, e2, e3, os, a1, a2, a3⟩, hcm⟩
    simp only at e3 a1 a2 a3 hcm ⊢
    have hi := interacting_eq s c (hc c hcm)
    rw [hi] at a1; cases a1
    rw [e3]
    exact ⟨hi, by rw [hm k k']; exact a2, a3⟩
  · rw [List.foldl_map]
    exact (sum_eq_foldl (weighted s f p.1.2 p.2.2) g).symm

/-- The accumulation over paths is the function of the grids at the points of the scene. -/
theorem accumulate_iff (G : GraphLib) (hG : GraphContract G) (tx rx : PyDict (V2 F))
    (ht : Distinct tx) (hr : Distinct rx) (h1 : s.transmitters = .fromMapping tx)
    (h2 : s.receivers = .fromMapping rx) (o : Scene.Orders) (ho : NonNegative o) (cs : List (List ℤ))
    (hcs : s.allPathCandidates G o = .ok cs) (hne : cs ≠ []) (split : Key → ℕ → List Key) (key : Option Key)
    (hm : KeyIndependent m) (f : Scene.PathFun) (ks : List (Option Key)) (hk : ks.length = cs.length)
    (es : List (String × String × F)) :
    s.accumulateOverPaths G split m o v key f = .ok es ↔
      List.Forall₂ (fun (p : NamedPair) e => e.1 = p.1.1 ∧ e.2.1 = p.2.1 ∧
        s.facc m v f p.1.2 p.2.2 0 (cs.zip ks) = .ok e.2.2) (tx ×ˢ rx) es := by
  obtain ⟨cs', hcs', hc⟩ := orders_candidates G hG s o ho
  rw [hcs] at hcs'; cases hcs'
  have fwd : ∀ es, s.accumulateOverPaths G split m o v key f = .ok es →
      List.Forall₂ (fun (p : NamedPair) e => e.1 = p.1.1 ∧ e.2.1 = p.2.1 ∧
        s.facc m v f p.1.2 p.2.2 0 (cs.zip ks) = .ok e.2.2) (tx ×ˢ rx) es := by
    intro es h
    unfold Scene.accumulateOverPaths at h
    cases hts : s.allPaths G split m o v key with
    | error e => rw [hts] at h; cases h
    | ok ts =>
      rw [hts] at h
      rw [allPaths_eq G s tx rx ht hr h1 h2 o cs hcs] at hts
      have hsome := tracePaths_some s m v split key _ ts hts
      have h' := (accumulateResults_eq s tx rx ht hr h1 h2 cs hc hne m v f ts hsome).symm.trans h
      cases h'
      obtain ⟨-, hb, -⟩ := blocks_eq s m v ht hr cs ts hsome
      rw [List.forall₂_map_right_iff, List.forall₂_same]
      intro p hp
      exact ⟨rfl, rfl, block_facc s m v hm f cs hc ks hk p _ (hb p hp)⟩
  refine ⟨fwd es, ?_⟩
  intro h
  obtain ⟨ts, hts⟩ : ∃ ts, s.allPaths G split m o v key = .ok ts := by
    rw [allPaths_eq G s tx rx ht hr h1 h2 o cs hcs]
    apply tracePaths_total s m v hm
    rintro ⟨p, c⟩ he
    obtain ⟨hp, hcm⟩ := List.mem_product.mp he
    obtain ⟨e, _, _, _, hf⟩ := forall₂_mem h.flip hp
    obtain ⟨ys, hys, _⟩ := (facc_ok s m v f _ _ _ _ _).mp hf
    obtain ⟨y, _, k, a1, a2, a3⟩ := forall₂_mem (forall₂_of_zip cs ks ys hk hys).flip hcm
    exact ⟨y.1, y.2.1, y.2.2, a1, ⟨k, a2⟩, a3⟩
  obtain ⟨es', hes'⟩ : ∃ es', s.accumulateOverPaths G split m o v key f = .ok es' := by
    rw [C58_entries G hG s tx rx ht hr h1 h2 o ho cs hcs hne, hts]
    exact ⟨_, rfl⟩
  have h' := fwd es' hes'
  rw [hes']
  congr 1
  generalize tx ×ˢ rx = P at h h'
  clear fwd hts hes'
  induction h generalizing es' with
  | nil => cases h'; rfl
  | cons a _ ih =>
    cases h' with
    | cons b h' =>
      rw [ih _ h']
      congr 1
      refine Prod.ext (b.1.trans a.1.symm) (Prod.ext (b.2.1.trans a.2.1.symm) ?_)
      have := b.2.2.symm.trans a.2.2
      injection this

end

/-! ## Arrays -/

theorem forall₂_get {α β : Type*} {R : α → β → Prop} {xs : List α} {ys : List β} (h : List.Forall₂ R xs ys)
    {i : ℕ} {x : α} (hx : xs[i]? = some x) : ∃ y, ys[i]? = some y ∧ R x y := by
  induction h generalizing i with
  | nil => simp at hx
  | cons h1 _ ih =>
    cases i with
    | zero => simp at hx; subst hx; exact ⟨_, rfl, h1⟩
    | succ i => simpa using ih (by simpa using hx)


theorem mapM_grid {α β : Type} (f : α → Except PyErr β) (grid : List (List α)) (z : List (List β))
    (h : grid.mapM (fun row => row.mapM f) = .ok z) :
    gridShape z = gridShape grid ∧
      ∀ a b x, gridAt grid a b = some x → ∃ w, gridAt z a b = some w ∧ f x = .ok w := by
  rw [mapM_iff] at h
  constructor
  · unfold gridShape
    induction h with
    | nil => rfl
    | cons h1 _ ih =>
      rw [mapM_iff] at h1
      simp [ih, h1.length_eq]
  · intro a b x hx
    unfold gridAt at hx ⊢
    cases hrow : grid[a]? with
    | none => rw [hrow] at hx; cases hx
    | some row =>
      rw [hrow] at hx
      obtain ⟨zrow, hz, hr⟩ := forall₂_get h hrow
      rw [mapM_iff] at hr
      obtain ⟨w, hw, hf⟩ := forall₂_get hr hx
      exact ⟨w, by rw [hz]; exact hw, hf⟩

theorem mapM_grid_total {α β : Type} (f : α → Except PyErr β) (grid : List (List α))
    (h : ∀ a b x, gridAt grid a b = some x → ∃ w, f x = .ok w) :
    ∃ z, grid.mapM (fun row => row.mapM f) = .ok z := by
  have tot : ∀ {γ δ : Type} (g : γ → Except PyErr δ) (xs : List γ), (∀ x ∈ xs, ∃ w, g x = .ok w) →
      ∃ ws, xs.mapM g = .ok ws := by
    intro γ δ g xs hx
    induction xs with
    | nil => exact ⟨[], rfl⟩
    | cons x xs ih =>
      obtain ⟨w, hw⟩ := hx x (by simp)
      obtain ⟨ws, hws⟩ := ih (fun y hy => hx y (by simp [hy]))
      exact ⟨w :: ws, by rw [List.mapM_cons, hw, hws]; rfl⟩
  apply tot
  intro row hrow
  apply tot
  intro x hx
  obtain ⟨a, ha⟩ := List.mem_iff_getElem?.mp hrow
  obtain ⟨b, hb⟩ := List.mem_iff_getElem?.mp hx
  exact h a b x (by unfold gridAt; rw [ha]; exact hb)

theorem gridAt_zipWith {α β γ : Type} (f : α → β → γ) (X : List (List α)) (Y : List (List β)) (a b : ℕ) (x : α)
    (y : β) (hx : gridAt X a b = some x) (hy : gridAt Y a b = some y) :
    gridAt (List.zipWith (List.zipWith f) X Y) a b = some (f x y) := by
  unfold gridAt at *
  cases h1 : X[a]? with
  | none => rw [h1] at hx; cases hx
  | some r1 =>
    cases h2 : Y[a]? with
    | none => rw [h2] at hy; cases hy
    | some r2 =>
      rw [h1] at hx; rw [h2] at hy
      simp only [Option.bind_some] at hx hy
      rw [List.getElem?_zipWith, h1, h2]
      simp [List.getElem?_zipWith, hx, hy]

theorem gridShape_zipWith {α β γ : Type} (f : α → β → γ) (X : List (List α)) (Y : List (List β))
    (h : gridShape X = gridShape Y) : gridShape (List.zipWith (List.zipWith f) X Y) = gridShape X := by
  unfold gridShape at *
  induction X generalizing Y with
  | nil => rfl
  | cons r X ih =>
    cases Y with
    | nil => simp at h
    | cons r' Y =>
      simp only [List.map_cons, List.cons.injEq] at h
      simp [h.1, ih Y h.2]

theorem gridAt_iff_shape {α β : Type} (X : Scene.Grid α) (Y : Scene.Grid β) (h : gridShape X = gridShape Y) (a b : ℕ)
    (x : α) (hx : gridAt X a b = some x) : ∃ y, gridAt Y a b = some y := by
  unfold gridShape gridAt at *
  induction X generalizing Y a with
  | nil => simp at hx
  | cons r X ih =>
    cases Y with
    | nil => simp at h
    | cons r' Y =>
      simp only [List.map_cons, List.cons.injEq] at h
      cases a with
      | zero =>
        simp only [List.getElem?_cons_zero, Option.bind_some] at hx ⊢
        have hb := (List.getElem?_eq_some_iff.mp hx).1
        rw [h.1] at hb
        exact ⟨_, List.getElem?_eq_getElem hb⟩
      | succ a =>
        simp only [List.getElem?_cons_succ] at hx ⊢
        exact ih Y h.2 a hx

theorem dstack_ok {X Y : Scene.Grid F} {g : Scene.Grid (V2 F)} (h : Scene.dstack X Y = .ok g) :
    gridShape X = gridShape Y ∧ gridShape g = gridShape X ∧
      ∀ a b x y, gridAt X a b = some x → gridAt Y a b = some y → gridAt g a b = some ⟨x, y⟩ := by
  unfold Scene.dstack at h
  split_ifs at h with hs
  cases h
  exact ⟨hs, gridShape_zipWith _ _ _ hs, fun a b x y hx hy => gridAt_zipWith _ _ _ _ _ _ _ hx hy⟩

theorem mapM_map {α β γ : Type} (g : α → Except PyErr β) (h : β → γ) (xs : List α) :
    xs.mapM (fun x => (g x).map h) = (xs.mapM g).map (List.map h) := by
  induction xs with
  | nil => rfl
  | cons x xs ih =>
    rw [List.mapM_cons, List.mapM_cons, ih]
    cases g x with
    | error e => rfl
    | ok y =>
      cases xs.mapM g with
      | error e => rfl
      | ok ys => rfl

/-- The parts of a grid accumulation for each named point. -/
noncomputable def gridCore (gradOp : (V2 F → F) → V2 F → V2 F) (ps : PyDict (V2 F)) (φ : V2 F → V2 F → Except PyErr F)
    (X Y : Scene.Grid F) : Except PyErr (List (String × Scene.Grid F × Scene.Grid (V2 F))) := do
  let grid ← Scene.dstack X Y
  ps.mapM fun p => (List.mapM (fun row : List (V2 F) => row.mapM (φ p.2)) grid).map fun z =>
    (p.1, z, grid.map fun row => row.map (gradOp fun x => match φ p.2 x with
      | .ok y => y
      | .error _ => F.nan))

/-- The part selected by the flags. -/
def gridSel (grad vag : Bool) (z : Scene.Grid F) (dz : Scene.Grid (V2 F)) : Scene.GridOut :=
  if vag then .both z dz else if grad then .gradient dz else .value z

theorem gridRun_eq (gradOp : (V2 F → F) → V2 F → V2 F) (grad vag : Bool) (ps : PyDict (V2 F))
    (φ : V2 F → V2 F → Except PyErr F) (X Y : Scene.Grid F) :
    (do
      let grid ← Scene.dstack X Y
      ps.mapM fun p => do
        let out ← Scene.mapGrid gradOp grad vag (φ p.2) grid
        pure (p.1, out)) =
    (gridCore gradOp ps φ X Y).map (List.map fun r => (r.1, gridSel grad vag r.2.1 r.2.2)) := by
  unfold gridCore
  cases Scene.dstack X Y with
  | error e => rfl
  | ok grid =>
    simp only [bind, Except.bind]
    rw [← mapM_map]
    congr 1
    funext p
    unfold Scene.mapGrid
    generalize List.mapM (fun row : List (V2 F) => List.mapM (φ p.2) row) grid = zz
    cases zz with
    | error e => rfl
    | ok z => cases grad <;> cases vag <;> rfl

theorem product_single {α β : Type*} (xs : List α) (y : β) : xs ×ˢ [y] = xs.map fun x => (x, y) := by
  induction xs with
  | nil => rfl
  | cons x xs ih => rw [List.product_cons, ih]; rfl

theorem single_product {α β : Type*} (x : α) (ys : List β) : [x] ×ˢ ys = ys.map fun y => (x, y) := by
  rw [List.product_cons]; simp

theorem receivers_eq {Key : Type} (G : GraphLib) (s : Scene) (tx : PyDict (V2 F)) (ht : Distinct tx)
    (h1 : s.transmitters = .fromMapping tx) (o : Scene.Orders) (cs : List (List ℤ))
    (hcs : s.allPathCandidates G o = .ok cs) (split : Key → ℕ → List Key) (key : Option Key)
    (m : Scene.PathMethod Key) (v : Scene.ValidOpts) (f : Scene.PathFun)
    (gradOp : (V2 F → F) → V2 F → V2 F) (grad vag : Bool) (X Y : Scene.Grid F) :
    s.accumulateOnReceiversGrid G split m o v key gradOp grad vag f X Y =
      (gridCore gradOp tx (fun t r => s.facc m v f t r 0 (cs.zip (Scene.gridKeys split key cs.length))) X Y).map
        (List.map fun r => (r.1, gridSel grad vag r.2.1 r.2.2)) := by
  obtain ⟨T, R, O⟩ := s
  simp only at h1
  subst h1
  rw [← gridRun_eq]
  have hw : Scene.withReceivers ⟨.fromMapping tx, R, O⟩ [("rx", ⟨0, 0⟩)] = .ok ⟨.fromMapping tx, .fromMapping [("rx", ⟨0, 0⟩)], O⟩ := by
    unfold Scene.withReceivers Scene.bindKwargs
    rw [if_neg (by simp)]; rfl
  have hc' : Scene.allPathCandidates ⟨.fromMapping tx, .fromMapping [("rx", ⟨0, 0⟩)], O⟩ G o = .ok cs := hcs
  have hd : Distinct [("rx", (⟨0, 0⟩ : V2 F))] := by simp [Distinct]
  unfold Scene.accumulateOnReceiversGrid
  rw [hw]
  simp only [bind, Except.bind, hc', Scene.allTransmitterReceiverPairs, items_eq ht, items_eq hd, pure, Except.pure]
  have hp : (tx ×ˢ [("rx", (⟨0, 0⟩ : V2 F))]) = tx.map fun t => (t, ("rx", ⟨0, 0⟩)) := product_single _ _
  rw [hp]
  have hf : ∀ t r, Scene.facc ⟨.fromMapping tx, .fromMapping [("rx", ⟨0, 0⟩)], O⟩ m v f t r 0
      (cs.zip (Scene.gridKeys split key cs.length)) = Scene.facc ⟨.fromMapping tx, R, O⟩ m v f t r 0 (cs.zip (Scene.gridKeys split key cs.length)) :=
    fun t r => facc_congr (by rfl) m v f t r _ _
  cases Scene.dstack X Y with
  | error e => rfl
  | ok grid =>
    simp only [List.mapM_map, Function.comp_def]
    simp only [hf]

theorem transmitters_eq {Key : Type} (G : GraphLib) (s : Scene) (rx : PyDict (V2 F)) (hr : Distinct rx)
    (h1 : s.receivers = .fromMapping rx) (o : Scene.Orders) (cs : List (List ℤ))
    (hcs : s.allPathCandidates G o = .ok cs) (split : Key → ℕ → List Key) (key : Option Key)
    (m : Scene.PathMethod Key) (v : Scene.ValidOpts) (f : Scene.PathFun)
    (gradOp : (V2 F → F) → V2 F → V2 F) (grad vag : Bool) (X Y : Scene.Grid F) :
    s.accumulateOnTransmittersGrid G split m o v key gradOp grad vag f X Y =
      (gridCore gradOp rx (fun r t => s.facc m v f t r 0 (cs.zip (Scene.gridKeys split key cs.length))) X Y).map
        (List.map fun r => (r.1, gridSel grad vag r.2.1 r.2.2)) := by
  obtain ⟨T, R, O⟩ := s
  simp only at h1
  subst h1
  rw [← gridRun_eq]
  have hw : Scene.withTransmitters ⟨T, .fromMapping rx, O⟩ [("tx", ⟨0, 0⟩)] = .ok ⟨.fromMapping [("tx", ⟨0, 0⟩)], .fromMapping rx, O⟩ := by
    unfold Scene.withTransmitters Scene.bindKwargs
    rw [if_neg (by simp)]; rfl
  have hc' : Scene.allPathCandidates ⟨.fromMapping [("tx", ⟨0, 0⟩)], .fromMapping rx, O⟩ G o = .ok cs := hcs
  have hd : Distinct [("tx", (⟨0, 0⟩ : V2 F))] := by simp [Distinct]
  unfold Scene.accumulateOnTransmittersGrid
  rw [hw]
  simp only [bind, Except.bind, hc', Scene.allTransmitterReceiverPairs, items_eq hr, items_eq hd, pure, Except.pure]
  have hp : ([("tx", (⟨0, 0⟩ : V2 F))] ×ˢ rx) = rx.map fun r => (("tx", ⟨0, 0⟩), r) := single_product _ _
  rw [hp]
  have hf : ∀ t r, Scene.facc ⟨.fromMapping [("tx", ⟨0, 0⟩)], .fromMapping rx, O⟩ m v f t r 0
      (cs.zip (Scene.gridKeys split key cs.length)) = Scene.facc ⟨T, .fromMapping rx, O⟩ m v f t r 0 (cs.zip (Scene.gridKeys split key cs.length)) :=
    fun t r => facc_congr (by rfl) m v f t r _ _
  cases Scene.dstack X Y with
  | error e => rfl
  | ok grid =>
    simp only [List.mapM_map, Function.comp_def]
    simp only [hf]


/-- The value of a computation that may fail (NaN if it does). -/
noncomputable def orNan (φ : V2 F → Except PyErr F) (x : V2 F) : F := match φ x with
  | .ok y => y
  | .error _ => F.nan

theorem gridCore_ok {gradOp : (V2 F → F) → V2 F → V2 F} {ps : PyDict (V2 F)} {φ : V2 F → V2 F → Except PyErr F}
    {X Y : Scene.Grid F} {rs : List (String × Scene.Grid F × Scene.Grid (V2 F))}
    (h : gridCore gradOp ps φ X Y = .ok rs) :
    gridShape X = gridShape Y ∧ List.Forall₂ (fun p r => r.1 = p.1 ∧ gridShape r.2.1 = gridShape X ∧
      gridShape r.2.2 = gridShape X ∧ ∀ a b x y, gridAt X a b = some x → gridAt Y a b = some y →
        (∃ w, gridAt r.2.1 a b = some w ∧ φ p.2 ⟨x, y⟩ = .ok w) ∧
        gridAt r.2.2 a b = some (gradOp (orNan (φ p.2)) ⟨x, y⟩)) ps rs := by
  unfold gridCore at h
  cases hd : Scene.dstack X Y with
  | error e => rw [hd] at h; cases h
  | ok grid =>
    rw [hd] at h
    obtain ⟨h1, h2, h3⟩ := dstack_ok hd
    refine ⟨h1, ?_⟩
    have h' := (mapM_iff _ _ _).mp h
    refine h'.imp ?_
    intro p r hr
    cases hz : List.mapM (fun row : List (V2 F) => row.mapM (φ p.2)) grid with
    | error e => rw [hz] at hr; cases hr
    | ok z =>
      rw [hz] at hr
      cases hr
      obtain ⟨e1, e2⟩ := mapM_grid _ _ _ hz
      refine ⟨rfl, e1.trans h2, ?_, ?_⟩
      · rw [← h2]; unfold gridShape; simp [Function.comp_def]
      · intro a b x y hx hy
        have hg := h3 a b x y hx hy
        refine ⟨e2 a b _ hg, ?_⟩
        unfold gridAt at hg ⊢
        simp only [List.getElem?_map]
        cases hrow : grid[a]? with
        | none => rw [hrow] at hg; cases hg
        | some row =>
          rw [hrow] at hg
          simp only [Option.map_some, Option.bind_some, List.getElem?_map] at hg ⊢
          rw [hg]; rfl

theorem gridCore_total (gradOp : (V2 F → F) → V2 F → V2 F) (ps : PyDict (V2 F)) (φ : V2 F → V2 F → Except PyErr F)
    (X Y : Scene.Grid F) (hs : gridShape X = gridShape Y)
    (h : ∀ p ∈ ps, ∀ a b x y, gridAt X a b = some x → gridAt Y a b = some y → ∃ w, φ p.2 ⟨x, y⟩ = .ok w) :
    ∃ rs, gridCore gradOp ps φ X Y = .ok rs := by
  unfold gridCore
  have hd : Scene.dstack X Y = .ok (List.zipWith (List.zipWith fun x y => ⟨x, y⟩) X Y) := by
    unfold Scene.dstack; exact if_pos hs
  rw [hd]
  obtain ⟨h1, h2, h3⟩ := dstack_ok hd
  generalize List.zipWith (List.zipWith fun x y => (⟨x, y⟩ : V2 F)) X Y = grid at h2 h3
  simp only [bind, Except.bind]
  have : ∀ p ∈ ps, ∃ z, List.mapM (fun row : List (V2 F) => row.mapM (φ p.2)) grid = .ok z := by
    intro p hp
    apply mapM_grid_total
    intro a b q hq
    obtain ⟨x, hx⟩ := gridAt_iff_shape grid X h2 a b q hq
    obtain ⟨y, hy⟩ := gridAt_iff_shape X Y h1 a b x hx
    have := h3 a b x y hx hy
    rw [hq] at this
    cases this
    exact h p hp a b x y hx hy
  clear h
  induction ps with
  | nil => exact ⟨[], rfl⟩
  | cons p ps ih =>
    obtain ⟨z, hz⟩ := this p (by simp)
    obtain ⟨rs, hrs⟩ := ih (fun q hq => this q (by simp [hq]))
    rw [List.mapM_cons, hz, hrs]
    exact ⟨_, rfl⟩

/-! ## reduce_all -/

/-- The sum of the arrays. -/
noncomputable def sumGrids {α : Type} (add : α → α → α) (zero : α) (zs : List (Scene.Grid α)) : Option (Scene.Grid α) :=
  zs.foldl (Scene.addGrid add zero) none

theorem foldl_addGrid_some {α : Type} (add : α → α → α) (zero : α) (zs : List (Scene.Grid α)) (Z : Scene.Grid α)
    (sh : List ℕ) (hZ : gridShape Z = sh) (hz : ∀ z ∈ zs, gridShape z = sh) :
    ∃ Z', zs.foldl (Scene.addGrid add zero) (some Z) = some Z' ∧ gridShape Z' = sh ∧
      ∀ a b w ws, gridAt Z a b = some w → List.Forall₂ (fun z w => gridAt z a b = some w) zs ws →
        gridAt Z' a b = some (ws.foldl add w) := by
  induction zs generalizing Z with
  | nil =>
    refine ⟨Z, rfl, hZ, ?_⟩
    intro a b w ws hw hws
    cases hws
    exact hw
  | cons z zs ih =>
    have hsh : gridShape (List.zipWith (List.zipWith add) Z z) = sh := by
      rw [gridShape_zipWith _ _ _ (hZ.trans (hz z (by simp)).symm), hZ]
    obtain ⟨Z', e1, e2, e3⟩ := ih _ hsh (fun y hy => hz y (by simp [hy]))
    refine ⟨Z', e1, e2, ?_⟩
    intro a b w ws hw hws
    cases hws with
    | cons h1 h2 => rw [List.foldl_cons]; exact e3 a b _ _ (gridAt_zipWith _ _ _ _ _ _ _ hw h1) h2

theorem sumGrids_spec {α : Type} (add : α → α → α) (zero : α) (zs : List (Scene.Grid α)) (sh : List ℕ)
    (hz : ∀ z ∈ zs, gridShape z = sh) :
    (zs = [] → sumGrids add zero zs = none) ∧
    (zs ≠ [] → ∃ Z, sumGrids add zero zs = some Z ∧ gridShape Z = sh ∧
      ∀ a b ws, List.Forall₂ (fun z w => gridAt z a b = some w) zs ws → gridAt Z a b = some (ws.foldl add zero)) := by
  refine ⟨fun h => by subst h; rfl, ?_⟩
  intro hne
  match zs, hne with
  | z :: zs, _ =>
    have hsh : gridShape (z.map fun row => row.map (add zero)) = sh := by
      rw [← hz z (by simp)]; unfold gridShape; simp [Function.comp_def]
    obtain ⟨Z', e1, e2, e3⟩ := foldl_addGrid_some add zero zs _ sh hsh (fun y hy => hz y (by simp [hy]))
    refine ⟨Z', e1, e2, ?_⟩
    intro a b ws hws
    cases hws with
    | cons h1 h2 =>
      rw [List.foldl_cons]
      refine e3 a b _ _ ?_ h2
      unfold gridAt at h1 ⊢
      simp only [List.getElem?_map]
      cases hrow : z[a]? with
      | none => rw [hrow] at h1; cases h1
      | some row =>
        rw [hrow] at h1
        simp only [Option.map_some, Option.bind_some, List.getElem?_map] at h1 ⊢
        rw [h1]; rfl

theorem reduceGrids_eq (grad vag : Bool) (rs : List (String × Scene.Grid F × Scene.Grid (V2 F))) :
    Scene.reduceGrids (rs.map fun r => (r.1, gridSel grad vag r.2.1 r.2.2)) =
      (if vag ∨ ¬ grad then sumGrids (· + ·) 0 (rs.map fun r => r.2.1) else none,
       if vag ∨ grad then sumGrids (· + ·) ⟨0, 0⟩ (rs.map fun r => r.2.2) else none) := by
  unfold Scene.reduceGrids sumGrids
  rw [List.foldl_map]
  have gen : ∀ (A : Option (Scene.Grid F)) (B : Option (Scene.Grid (V2 F))),
      rs.foldl (fun Z r =>
        match (r.1, gridSel grad vag r.2.1 r.2.2).2 with
        | .value p => (Scene.addGrid (· + ·) 0 Z.1 p, Z.2)
        | .gradient dp => (Z.1, Scene.addGrid (· + ·) ⟨0, 0⟩ Z.2 dp)
        | .both p dp => (Scene.addGrid (· + ·) 0 Z.1 p, Scene.addGrid (· + ·) ⟨0, 0⟩ Z.2 dp)) (A, B) =
      (if vag ∨ ¬ grad then (rs.map fun r => r.2.1).foldl (Scene.addGrid (· + ·) 0) A else A,
       if vag ∨ grad then (rs.map fun r => r.2.2).foldl (Scene.addGrid (· + ·) ⟨0, 0⟩) B else B) := by
    induction rs with
    | nil => intro A B; simp
    | cons r rs ih =>
      intro A B
      rw [List.foldl_cons]
      cases grad <;> cases vag <;> exact (ih _ _).trans (by simp)
  exact gen none none

end DiffeRT2d
