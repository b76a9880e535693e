import Verif.Lemmas.Figures
import Verif.Props.Window
import Verif.Props.LitFlat

/-! C143 — the figures of the examples and of the papers. -/

namespace DiffeRT2d.Props
open Spec Classical Figures MeasureTheory Filter Topology

variable {Key : Type}

private theorem withTransmitters_one (s : Scene) (p : V2 F) : s.withTransmitters [("tx", p)] = .ok { s with transmitters := .fromMapping [("tx", p)] } := by
  unfold Scene.withTransmitters Scene.bindKwargs
  rw [if_neg (by simp)]
  rfl

private theorem loss_eq (G : GraphLib) (s : Scene) (split : Key → ℕ → List Key) (m : Scene.PathMethod Key) (o : Scene.Orders) (v : Scene.ValidOpts) (key : Option Key) (f : Scene.PathFun)
    (p : V2 F) (s' : Scene) (hs : s.withTransmitters [("tx", p)] = .ok s') (es : List (String × String × F)) (he : s'.accumulateOverPaths G split m o v key f = .ok es) :
    Figures.loss s G split m o v key f p = .ok (.scalar (-(es.map fun e => e.2.2).foldl worse F.pinf)) := by
  unfold Figures.loss
  simp only [hs, he, Bind.bind, Except.bind, pure, Except.pure]
  have : (es.map fun e => Arr.scalar e.2.2) = (es.map fun e => e.2.2).map .scalar := by rw [List.map_map]; rfl
  rw [this, objective_scalars]
  rfl

/-- **C143.** The map of the objective function is the opposite of the loss that is minimized: at each position of the grid, for any objects, and whatever the keys. -/
theorem C143_objective (G : GraphLib) (hG : GraphContract G) (s : Scene) (rx : PyDict (V2 F)) (hd : Distinct rx) (hrx : rx ≠ []) (h1 : s.receivers = .fromMapping rx)
    (o : Scene.Orders) (ho : NonNegative o) (cs : List (List ℤ)) (hcs : s.allPathCandidates G o = .ok cs) (hne : cs ≠ []) (split : Key → ℕ → List Key)
    (hsp : SplitCount split) (key : Option Key) (m : Scene.PathMethod Key) (hm : KeyIndependent m)
    (v : Scene.ValidOpts) (f : Scene.PathFun) (gradOp : (V2 F → F) → V2 F → V2 F) (X Y : Scene.Grid F) (out : Arr)
    (h : objectiveMap s G split m o v key gradOp f X Y = .ok out) :
    ∃ z : Scene.Grid F, out = .grid z ∧ gridShape z = gridShape X ∧ ∀ a b x y, gridAt X a b = some x → gridAt Y a b = some y →
      ∃ w, gridAt z a b = some w ∧ ∀ key', Figures.loss s G split m o v key' f ⟨x, y⟩ = .ok (.scalar (-w)) := by
  unfold objectiveMap at h
  cases hg : s.accumulateOnTransmittersGrid G split m o v key gradOp false false f X Y with
  | error e => rw [hg] at h; cases h
  | ok outs =>
    rw [hg] at h
    obtain rfl := Except.ok.inj h
    obtain ⟨zs, e1, e2, e3, -, e5⟩ := C60_transmitters G hG s rx hd h1 o ho cs hcs hne split hsp key m hm v f gradOp X Y outs hg
    have hzs : zs ≠ [] := by
      intro h0
      rw [h0] at e2
      exact hrx (List.length_eq_zero_iff.mp e2.symm)
    have hv : (outs.map fun e => valueOf e.2) = zs.map .grid := by
      rw [e1]
      have : ((rx.map Prod.fst).zip (zs.map Scene.GridOut.value)).map (fun e => valueOf e.2) = (((rx.map Prod.fst).zip (zs.map Scene.GridOut.value)).map Prod.snd).map valueOf := by
        rw [List.map_map]; rfl
      rw [this, List.map_snd_zip (by simp [e2]), List.map_map]
      rfl
    obtain ⟨Z, k1, k2, k3⟩ := objective_grids e3 hzs
    refine ⟨Z, by rw [hv, k1], k2, fun a b x y hx hy => ?_⟩
    obtain ⟨s', hs', hes⟩ := e5 a b x y hx hy
    have hsnd : ∀ key', ∃ es, s'.accumulateOverPaths G split m o v key' f = .ok es ∧ (es.map fun e => e.2.2).map some = zs.map fun z => gridAt z a b := by
      intro key'
      obtain ⟨es, q1, q2⟩ := hes key'
      refine ⟨es, q1, ?_⟩
      have := congrArg (List.map Prod.snd) q2
      rw [List.map_snd_zip (by simp [e2]), List.map_map] at this
      rw [← this, List.map_map]
      rfl
    obtain ⟨es, q1, q2⟩ := hsnd key
    have hat : ∀ ws : List F, ws.map some = zs.map (fun z => gridAt z a b) → gridAt Z a b = some (ws.foldl worse F.pinf) := by
      intro ws hws
      refine k3 a b ws ?_
      rw [← List.forall₂_map_right_iff (f := some) (R := fun (z : Scene.Grid F) (w : Option F) => gridAt z a b = w), hws, List.forall₂_map_right_iff]
      exact List.forall₂_same.mpr fun z _ => rfl
    refine ⟨_, hat _ q2, fun key' => ?_⟩
    obtain ⟨es', p1, p2⟩ := hsnd key'
    rw [loss_eq G s split m o v key' f ⟨x, y⟩ s' hs' es' p1]
    have : (es'.map fun e => e.2.2) = es.map fun e => e.2.2 := List.map_injective_iff.mpr (Option.some_injective _) (p2.trans q2.symm)
    rw [this]

/-- C143 applies to a scene with a wall, to any grid: there is a map, and it is the opposite of the loss. -/
example (G : GraphLib) (hG : GraphContract G) (f : Scene.PathFun) (gradOp : (V2 F → F) → V2 F → V2 F) (X Y : Scene.Grid F) (h : gridShape X = gridShape Y) :
    ∃ z : Scene.Grid F, objectiveMap blockedScene G KeyTerm.split (imageMethod KeyTerm) { minOrder := 0, maxOrder := 0 } hardOpts (some .user) gradOp f X Y = .ok (.grid z) ∧
      ∀ a b x y, gridAt X a b = some x → gridAt Y a b = some y → ∃ w, gridAt z a b = some w ∧
        Figures.loss blockedScene G KeyTerm.split (imageMethod KeyTerm) { minOrder := 0, maxOrder := 0 } hardOpts none f ⟨x, y⟩ = .ok (.scalar (-w)) := by
  obtain ⟨out, e⟩ := blocked_transmitters_grid G hG f gradOp false false X Y h
  have hm : objectiveMap blockedScene G KeyTerm.split (imageMethod KeyTerm) { minOrder := 0, maxOrder := 0 } hardOpts (some .user) gradOp f X Y =
      .ok (objectiveFunction (out.map fun e => valueOf e.2)) := by
    unfold objectiveMap
    rw [e]; rfl
  obtain ⟨z, e1, -, e3⟩ := C143_objective G hG blockedScene (finPoints [("rx", ⟨2, 0⟩)]) (by simp [Distinct, finPoints]) (by simp [finPoints]) rfl _ (by simp [NonNegative]) [[]]
    (candidates_zero G hG _) (by simp) KeyTerm.split (fun _ _ => by simp [KeyTerm.split]) _ _ (fun _ _ _ _ _ => rfl) hardOpts f gradOp X Y _ hm
  refine ⟨z, by rw [hm, e1], fun a b x y hx hy => ?_⟩
  obtain ⟨w, k1, k2⟩ := e3 a b x y hx hy
  exact ⟨w, k1, k2 none⟩

/-- **C143.** The objective function is the power of the worst served receiver, normalized by `P0`. -/
theorem C143_worst (powers : List ℝ) (h : powers ≠ []) : ∃ p ∈ powers, (∀ q ∈ powers, p ≤ q) ∧
    objectiveFunction (powers.map fun p => .scalar (F.fin p)) = .scalar (F.fin (p / 100)) := by
  have e : (powers.map fun p => Arr.scalar (F.fin p)) = (powers.map F.fin).map .scalar := by rw [List.map_map]; rfl
  rw [e, objective_scalars]
  match powers, h with
  | p :: ps, _ =>
    rw [List.map_cons, List.foldl_cons, worse_pinf]
    obtain ⟨y, h1, h2, h3, h4⟩ := foldl_worse ps (p / 100)
    rw [h1]
    have key : ∀ q, y = q / 100 → ∀ r ∈ p :: ps, q ≤ r := by
      intro q hq r hr
      rcases List.mem_cons.mp hr with rfl | hr
      · linarith
      · have := h4 r hr
        linarith
    rcases h2 with h2 | ⟨q, hq, h2⟩
    · exact ⟨p, by simp, key p h2, by rw [h2]⟩
    · exact ⟨q, by simp [hq], key q h2, by rw [h2]⟩

/-- **C143.** A power that is NaN makes the objective function NaN. -/
theorem C143_nan (powers : List F) (h : F.nan ∈ powers) : objectiveFunction (powers.map .scalar) = .scalar F.nan := by
  rw [objective_scalars]
  obtain ⟨as, bs, rfl⟩ := List.append_of_mem h
  rw [List.foldl_append, List.foldl_cons, worse_nan, foldl_worse_nan]

/-- **C143.** Without candidates (no path has the orders that are asked for), the map and the loss differ: the map is zero, the loss is minus infinity. -/
theorem C143_no_candidates (G : GraphLib) (s : Scene) (rx : PyDict (V2 F)) (hd : Distinct rx) (hrx : rx ≠ []) (h1 : s.receivers = .fromMapping rx)
    (o : Scene.Orders) (hcs : s.allPathCandidates G o = .ok []) (split : Key → ℕ → List Key) (key : Option Key) (m : Scene.PathMethod Key)
    (v : Scene.ValidOpts) (f : Scene.PathFun) (gradOp : (V2 F → F) → V2 F → V2 F) (X Y : Scene.Grid F) (out : Arr)
    (h : objectiveMap s G split m o v key gradOp f X Y = .ok out) :
    (∃ z : Scene.Grid F, out = .grid z ∧ gridShape z = gridShape X ∧ ∀ a b x y, gridAt X a b = some x → gridAt Y a b = some y → gridAt z a b = some 0) ∧
    ∀ p, Figures.loss s G split m o v key f p = .ok (.scalar F.ninf) := by
  constructor
  · unfold objectiveMap at h
    cases hg : s.accumulateOnTransmittersGrid G split m o v key gradOp false false f X Y with
    | error e => rw [hg] at h; cases h
    | ok outs =>
      rw [hg] at h
      obtain rfl := Except.ok.inj h
      obtain ⟨zs, e1, e2, e3⟩ := C60_transmitters_no_candidates G s rx hd h1 o hcs split key m v f gradOp X Y outs hg
      have hzs : zs ≠ [] := by
        intro h0
        rw [h0] at e2
        exact hrx (List.length_eq_zero_iff.mp e2.symm)
      have hv : (outs.map fun e => valueOf e.2) = zs.map .grid := by
        rw [e1]
        have : ((rx.map Prod.fst).zip (zs.map Scene.GridOut.value)).map (fun e => valueOf e.2) = (((rx.map Prod.fst).zip (zs.map Scene.GridOut.value)).map Prod.snd).map valueOf := by
          rw [List.map_map]; rfl
        rw [this, List.map_snd_zip (by simp [e2]), List.map_map]
        rfl
      obtain ⟨Z, k1, k2, k3⟩ := objective_grids (fun z hz => (e3 z hz).1) hzs
      refine ⟨Z, by rw [hv, k1], k2, fun a b x y hx hy => ?_⟩
      rw [k3 a b (List.replicate zs.length 0) (by
        have : ∀ zs : List (Scene.Grid F), (∀ z ∈ zs, gridAt z a b = some 0) → List.Forall₂ (fun z w => gridAt z a b = some w) zs (List.replicate zs.length 0) := by
          intro zs
          induction zs with
          | nil => exact fun _ => .nil
          | cons z zs ih => exact fun h => .cons (h z (by simp)) (ih fun z hz => h z (by simp [hz]))
        exact this zs fun z hz => (e3 z hz).2 a b x y hx hy)]
      have hz : ∀ n : ℕ, n ≠ 0 → (List.replicate n (0 : F)).foldl worse F.pinf = 0 := by
        intro n hn
        obtain ⟨k, rfl⟩ := Nat.exists_eq_succ_of_ne_zero hn
        rw [List.replicate_succ, List.foldl_cons, F.zero_eq, worse_pinf, zero_div]
        clear hn
        induction k with
        | zero => rfl
        | succ k ih => rw [List.replicate_succ, List.foldl_cons, worse_fin, zero_div, min_self]; exact ih
      rw [hz _ (by simpa using hzs)]
  · intro p
    have hS : IsScene { s with transmitters := .fromMapping [("tx", p)] } := ⟨⟨_, by simp [Distinct], rfl⟩, ⟨rx, hd, h1⟩⟩
    rw [loss_eq G s split m o v key f p _ (withTransmitters_one s p) [] (C59_no_candidates G _ hS o hcs split key m v f)]
    rfl

/-- That case occurs: one bounce in a scene without objects. -/
example (G : GraphLib) (hG : GraphContract G) (f : Scene.PathFun) (gradOp : (V2 F → F) → V2 F → V2 F) : ∃ z : Scene.Grid F,
    objectiveMap (Scene.make [("tx", ⟨0, 0⟩)] [("rx", ⟨2, 0⟩)] []) G KeyTerm.split (imageMethod KeyTerm) { minOrder := 1, maxOrder := 1 } hardOpts none gradOp f [[1]] [[1]] = .ok (.grid z) ∧
    gridAt z 0 0 = some 0 ∧
    Figures.loss (Scene.make [("tx", ⟨0, 0⟩)] [("rx", ⟨2, 0⟩)] []) G KeyTerm.split (imageMethod KeyTerm) { minOrder := 1, maxOrder := 1 } hardOpts none f ⟨1, 1⟩ = .ok (.scalar F.ninf) := by
  have e1 := empty_candidates G hG (Scene.make [("tx", ⟨0, 0⟩)] [("rx", ⟨2, 0⟩)] []) rfl
  obtain ⟨out, e⟩ : ∃ out, objectiveMap (Scene.make [("tx", ⟨0, 0⟩)] [("rx", ⟨2, 0⟩)] []) G KeyTerm.split (imageMethod KeyTerm) { minOrder := 1, maxOrder := 1 } hardOpts none gradOp f
      [[1]] [[1]] = .ok out := by
    rcases C62_transmitters G (Scene.make [("tx", ⟨0, 0⟩)] [("rx", ⟨2, 0⟩)] []) _ (by simp [Distinct]) rfl _ [] e1 KeyTerm.split none
      (imageMethod KeyTerm) hardOpts f gradOp [[1]] [[1]] with ⟨er, he⟩ | ⟨rs, -, -, hrs⟩
    · have := he false false
      unfold Scene.accumulateOnTransmittersGrid at this
      have hw : (Scene.make [("tx", ⟨0, 0⟩)] [("rx", ⟨2, 0⟩)] []).withTransmitters [("tx", ⟨0, 0⟩)] =
          .ok (Scene.make [("tx", ⟨0, 0⟩)] [("rx", ⟨2, 0⟩)] []) := by
        rw [withTransmitters_one]; rfl
      rw [hw] at this
      simp only [Bind.bind, Except.bind, e1] at this
      exact absurd this (by
        rw [show (Scene.make [("tx", ⟨0, 0⟩)] [("rx", ⟨2, 0⟩)] []).allTransmitterReceiverPairs =
          .ok [(("tx", ⟨0, 0⟩), ("rx", ⟨2, 0⟩))] from rfl]
        rw [show Scene.dstack ([[1]] : Scene.Grid F) [[1]] = .ok [[⟨1, 1⟩]] from rfl]
        simp [List.mapM_cons, Scene.mapGrid, Scene.facc, Bind.bind, Except.bind, Pure.pure, Except.pure])
    · simp only at hrs
      unfold objectiveMap
      rw [hrs]
      exact ⟨_, rfl⟩
  obtain ⟨⟨z, rfl, -, k⟩, k'⟩ := C143_no_candidates G _ [("rx", ⟨2, 0⟩)] (by simp [Distinct]) (by simp) rfl _ e1 KeyTerm.split none (imageMethod KeyTerm) hardOpts f gradOp [[1]] [[1]] out e
  exact ⟨z, e, k 0 0 1 1 rfl rfl, k' _⟩

/-- **C143.** The map does not depend on where the transmitters of the scene are. -/
theorem C143_any_transmitter (G : GraphLib) (s s' : Scene) (tx : PyDict (V2 F)) (hs : s.withTransmitters tx = .ok s') (split : Key → ℕ → List Key) (key : Option Key)
    (m : Scene.PathMethod Key) (o : Scene.Orders) (v : Scene.ValidOpts) (f : Scene.PathFun) (gradOp : (V2 F → F) → V2 F → V2 F) (X Y : Scene.Grid F) :
    objectiveMap s' G split m o v key gradOp f X Y = objectiveMap s G split m o v key gradOp f X Y := by
  have : ∃ d, s' = { s with transmitters := d } := by
    unfold Scene.withTransmitters at hs
    cases hb : Scene.bindKwargs tx with
    | error e => rw [hb] at hs; cases hs
    | ok d =>
      rw [hb] at hs
      exact ⟨_, (Except.ok.inj hs).symm⟩
  obtain ⟨d, rfl⟩ := this
  unfold objectiveMap Scene.accumulateOnTransmittersGrid
  rw [withTransmitters_one, withTransmitters_one]

/-! ## The map of the power -/

/-- **C143.** Each cell of the map of the power shows, in decibels, the sum over the transmitters of the power that `accumulate_over_paths` gives when the only receiver is there:
for any objects, and whatever the keys. -/
theorem C143_power (G : GraphLib) (hG : GraphContract G) (s : Scene) (tx : PyDict (V2 F)) (hd : Distinct tx) (htx : tx ≠ []) (h1 : s.transmitters = .fromMapping tx)
    (o : Scene.Orders) (ho : NonNegative o) (cs : List (List ℤ)) (hcs : s.allPathCandidates G o = .ok cs) (split : Key → ℕ → List Key)
    (hsp : SplitCount split) (key : Option Key) (m : Scene.PathMethod Key) (hm : KeyIndependent m)
    (v : Scene.ValidOpts) (f : Scene.PathFun) (gradOp : (V2 F → F) → V2 F → V2 F) (X Y : Scene.Grid F) (out : Option (Scene.Grid F))
    (h : powerMap s G split m o v key gradOp f X Y = .ok out) :
    ∃ z : Scene.Grid F, out = some z ∧ gridShape z = gridShape X ∧ ∀ a b x y, gridAt X a b = some x → gridAt Y a b = some y →
      ∃ s' total, s.withReceivers [("rx", ⟨x, y⟩)] = .ok s' ∧ (∀ key', s'.accumulateOverPathsAll G split m o v key' f = .ok total) ∧
        gridAt z a b = some (10 * (total / P0).log10) := by
  unfold powerMap at h
  have hout : ∃ outs, s.accumulateOnReceiversGrid G split m o v key gradOp false false f X Y = .ok outs := by
    cases hg : s.accumulateOnReceiversGrid G split m o v key gradOp false false f X Y with
    | error e => unfold Scene.accumulateOnReceiversGridAll at h; rw [hg] at h; cases h
    | ok outs => exact ⟨outs, rfl⟩
  obtain ⟨outs, hg⟩ := hout
  have hw : ∀ x y, s.withReceivers [("rx", ⟨x, y⟩)] = .ok { s with receivers := .fromMapping [("rx", ⟨x, y⟩)] } := by
    intro x y
    unfold Scene.withReceivers Scene.bindKwargs
    rw [if_neg (by simp)]; rfl
  have key : ∃ zs : List (Scene.Grid F), outs = (tx.map Prod.fst).zip (zs.map .value) ∧ zs.length = tx.length ∧ ∀ a b x y, gridAt X a b = some x → gridAt Y a b = some y →
      ∃ ws : List F, zs.map (fun z => gridAt z a b) = ws.map some ∧
        ∀ key', Scene.accumulateOverPathsAll { s with receivers := .fromMapping [("rx", ⟨x, y⟩)] } G split m o v key' f = .ok (F.sum ws) := by
    by_cases hne : cs = []
    · subst hne
      obtain ⟨zs, e1, e2, e3⟩ := C60_receivers_no_candidates G s tx hd h1 o hcs split key m v f gradOp X Y outs hg
      refine ⟨zs, e1, e2, fun a b x y hx hy => ⟨List.replicate zs.length 0, ?_, fun key' => ?_⟩⟩
      · rw [List.map_replicate, List.eq_replicate_iff]
        refine ⟨by simp, fun w hw => ?_⟩
        obtain ⟨z, hz, rfl⟩ := List.mem_map.mp hw
        exact (e3 z hz).2 a b x y hx hy
      · have hS : IsScene { s with receivers := .fromMapping [("rx", ⟨x, y⟩)] } := ⟨⟨tx, hd, h1⟩, ⟨_, by simp [Distinct], rfl⟩⟩
        rw [C58_reduce, C59_no_candidates G _ hS o hcs]
        have : ∀ n : ℕ, F.sum (List.replicate n (0 : F)) = F.fin 0 := by
          intro n
          induction n with
          | zero => rfl
          | succ k ih =>
            rw [List.replicate_succ]
            unfold F.sum at ih ⊢
            rw [List.foldl_cons]
            simpa [F.zero_eq] using ih
        rw [this]
        rfl
    · obtain ⟨zs, e1, e2, -, -, e5⟩ := C60_receivers G hG s tx hd h1 o ho cs hcs hne split hsp key m hm v f gradOp X Y outs hg
      refine ⟨zs, e1, e2, fun a b x y hx hy => ?_⟩
      obtain ⟨s', hs', hes⟩ := e5 a b x y hx hy
      rw [hw] at hs'
      obtain rfl := Except.ok.inj hs'
      have hsnd : ∀ key', ∃ es, Scene.accumulateOverPaths { s with receivers := .fromMapping [("rx", ⟨x, y⟩)] } G split m o v key' f = .ok es ∧
          zs.map (fun z => gridAt z a b) = (es.map fun e => e.2.2).map some := by
        intro key'
        obtain ⟨es, q1, q2⟩ := hes key'
        refine ⟨es, q1, ?_⟩
        have := congrArg (List.map Prod.snd) q2
        rw [List.map_snd_zip (by simp [e2]), List.map_map] at this
        rw [← this, List.map_map]
        rfl
      obtain ⟨es, q1, q2⟩ := hsnd key
      refine ⟨_, q2, fun key' => ?_⟩
      obtain ⟨es', p1, p2⟩ := hsnd key'
      have : (es'.map fun e => e.2.2) = es.map fun e => e.2.2 := List.map_injective_iff.mpr (Option.some_injective _) (p2.symm.trans q2)
      rw [C58_reduce, p1, ← this]
      rfl
  obtain ⟨zs, e1, e2, e3⟩ := key
  rw [e1] at hg
  obtain ⟨Z, k1, -, k3⟩ := C60_receivers_reduce G s tx hd h1 o cs hcs split _ m v f gradOp X Y zs e2 hg
  obtain ⟨z, rfl, k4, k5⟩ := k3 htx
  rw [k1] at h
  obtain rfl := Except.ok.inj h
  refine ⟨_, rfl, ?_, fun a b x y hx hy => ?_⟩
  · rw [← k4]
    simp [gridShape, Function.comp_def]
  · obtain ⟨ws, p1, p2⟩ := e3 a b x y hx hy
    refine ⟨_, _, hw x y, p2, ?_⟩
    have := k5 a b ws p1
    unfold gridAt at this ⊢
    rw [List.getElem?_map]
    cases hz : z[a]? with
    | none => rw [hz] at this; cases this
    | some row =>
      rw [hz] at this
      simp only [Option.map_some, Option.bind_some, List.getElem?_map] at this ⊢
      rw [this]
      simp only [Option.map_some, Window.toDB]
      congr 2
      simp only [OfScientific.ofScientific, F.ofNat_eq]
      norm_num

/-- C143 applies to a scene with a wall, to any grid: there is a map of the power. -/
example (G : GraphLib) (hG : GraphContract G) (f : Scene.PathFun) (gradOp : (V2 F → F) → V2 F → V2 F) (X Y : Scene.Grid F) (h : gridShape X = gridShape Y) :
    ∃ z : Scene.Grid F, powerMap blockedScene G KeyTerm.split (imageMethod KeyTerm) { minOrder := 0, maxOrder := 0 } hardOpts (some .user) gradOp f X Y = .ok (some z) ∧
      ∀ a b x y, gridAt X a b = some x → gridAt Y a b = some y → ∃ s' total, blockedScene.withReceivers [("rx", ⟨x, y⟩)] = .ok s' ∧
        s'.accumulateOverPathsAll G KeyTerm.split (imageMethod KeyTerm) { minOrder := 0, maxOrder := 0 } hardOpts none f = .ok total ∧
        gridAt z a b = some (10 * (total / P0).log10) := by
  obtain ⟨out, e⟩ := blocked_receivers_grid G hG f gradOp false false X Y h
  obtain ⟨out', hm⟩ : ∃ out', powerMap blockedScene G KeyTerm.split (imageMethod KeyTerm) { minOrder := 0, maxOrder := 0 } hardOpts (some .user) gradOp f X Y = .ok out' := by
    unfold powerMap Scene.accumulateOnReceiversGridAll
    rw [e]
    exact ⟨_, rfl⟩
  obtain ⟨z, rfl, -, e3⟩ := C143_power G hG blockedScene (finPoints [("tx", ⟨0, 0⟩)]) (by simp [Distinct, finPoints]) (by simp [finPoints]) rfl _ (by simp [NonNegative]) [[]]
    (candidates_zero G hG _) KeyTerm.split (fun _ _ => by simp [KeyTerm.split]) _ _ (fun _ _ _ _ _ => rfl) hardOpts f gradOp X Y _ hm
  refine ⟨z, hm, fun a b x y hx hy => ?_⟩
  obtain ⟨s', total, k1, k2, k3⟩ := e3 a b x y hx hy
  exact ⟨s', total, k1, k2 none, k3⟩

/-- **C143.** The decibels order the positions as the power does: a power is shown as a real number, or as minus infinity if it is zero. -/
theorem C143_decibels {p q : ℝ} (hp : 0 ≤ p) (hq : 0 ≤ q) :
    10 * (F.fin p / P0).log10 = (if p = 0 then F.ninf else F.fin (10 * Real.logb 10 (p / 100))) ∧
    F.lt (10 * (F.fin p / P0).log10) (10 * (F.fin q / P0).log10) = decide (p < q) := by
  refine ⟨toDB_fin hp, ?_⟩
  rw [toDB_fin hp, toDB_fin hq]
  unfold decibels
  by_cases h1 : p = 0 <;> by_cases h2 : q = 0
  · simp [h1, h2, F.lt]
  · simp [h1, h2, F.lt, lt_of_le_of_ne hq (Ne.symm h2)]
  · simp [h1, h2, F.lt, hp]
  · simp only [h1, h2, if_false, F.lt, decide_eq_decide]
    have h1 : 0 < p / 100 := by positivity
    rw [mul_lt_mul_iff_right₀ (by norm_num), Real.logb_lt_logb_iff (by norm_num) h1 (by positivity)]
    constructor <;> intro h <;> linarith

/-- **C143.** With lines of sight only and the default height (or more), no cell is above 0 dB for one transmitter: with or without approximation. -/
theorem C143_sight (G : GraphLib) (hG : GraphContract G) (n : String) (t r : Pt) (walls : List (Pt × Pt)) (split : Key → ℕ → List Key) (key : Option Key) (E : Env)
    (tol patch : F) (ap : Bool) (kw : ActKw) (hk : GoodKw kw) (coef height : ℝ) (hht : 1 / 10 ≤ height) : ∃ p : ℝ, 0 ≤ p ∧ p ≤ 100 ∧
    (wallScene [(n, t)] [("rx", r)] walls).accumulateOverPathsAll G split (imageMethod Key) { minOrder := 0, maxOrder := 0 } ⟨E, tol, patch, some ap, kw⟩ key (powerFun E coef height) =
      .ok (F.fin p) ∧ F.lt 0 (10 * (F.fin p / P0).log10) = false := by
  have hhp : 0 < height := by linarith
  obtain ⟨cs, hcs, hcd, hcm, hne⟩ := cands_walls G hG [(n, t)] [("rx", r)] walls 0 0 le_rfl ⟨[], by simp [InRange, IsCandidate]⟩
  have hcs1 : cs = [[]] := by
    have hall : ∀ c ∈ cs, c = [] := by
      intro c hc
      have := (hcm c).mp hc
      exact List.length_eq_zero_iff.mp (by have := this.2; omega)
    obtain ⟨k, hk⟩ : ∃ k, cs = List.replicate k [] := ⟨cs.length, List.eq_replicate_iff.mpr ⟨rfl, hall⟩⟩
    have h1 : k ≤ 1 := by rw [hk] at hcd; exact List.nodup_replicate.mp hcd
    have h0 : k ≠ 0 := by rintro rfl; exact hne hk
    obtain rfl : k = 1 := by omega
    exact hk
  obtain ⟨v, d, h1, h2, h3, h4, -⟩ := validity_degree (wallScene [(n, t)] [("rx", r)] walls) walls (wallsAt walls []) (wallScene_objects _ _ _) E tol patch ap kw hk
      (finitePath (rpath t r (wallsAt walls [])) (scores (wallsAt walls []) (rpath t r (wallsAt walls []))).sum) [] rfl rfl
  unfold Scene.validity at h1
  rw [wallScene_objects] at h1
  have := accumulate_walls G hG [(n, t)] [("rx", r)] (by simp [Distinct]) (by simp [Distinct]) walls 0 0 le_rfl cs hcs hcd hcm hne split key
    ⟨E, tol, patch, some ap, kw⟩ (powerFun E coef height) _ (realFun_power E coef height hhp) (fun _ _ _ => d) (by
      intro t' ht' r' hr' c hc
      rw [hcs1] at hc
      simp only [List.mem_singleton] at ht' hr' hc
      subst ht' hr' hc
      exact ⟨v, h1, h2⟩)
  rw [hcs1] at this
  have hx : 0 ≤ plen E.eps (rpath t r (wallsAt walls [])) ^ 2 := by positivity
  have hden : 1 / 100 ≤ height ^ 2 + plen E.eps (rpath t r (wallsAt walls [])) ^ 2 := by nlinarith
  have hval : 1 / (height ^ 2 + plen E.eps (rpath t r (wallsAt walls [])) ^ 2) ≤ 100 := by
    rw [div_le_iff₀ (by linarith)]
    linarith
  have hnn : 0 ≤ 1 / (height ^ 2 + plen E.eps (rpath t r (wallsAt walls [])) ^ 2) := by positivity
  refine ⟨d * (1 / (height ^ 2 + plen E.eps (rpath t r (wallsAt walls [])) ^ 2)), mul_nonneg h3 hnn, by nlinarith, ?_, ?_⟩
  · rw [C58_reduce, this]
    have hl : (rpath t r (wallsAt walls [])).length - 2 = 0 := rfl
    simp [Except.map, F.sum, F.zero_eq, hl]
  · rw [toDB_fin (mul_nonneg h3 hnn)]
    unfold decibels
    by_cases h0 : d * (1 / (height ^ 2 + plen E.eps (rpath t r (wallsAt walls [])) ^ 2)) = 0
    · rw [if_pos h0, F.zero_eq]; rfl
    · rw [if_neg h0, F.zero_eq]
      simp only [F.lt, decide_eq_false_iff_not, not_lt]
      have : Real.logb 10 (d * (1 / (height ^ 2 + plen E.eps (rpath t r (wallsAt walls [])) ^ 2)) / 100) ≤ 0 :=
        Real.logb_nonpos (by norm_num) (by positivity) (by rw [div_le_one (by norm_num)]; nlinarith)
      linarith

/-! ## The map of the gradient -/

private theorem foldl_maps {α : Type} (add : α → α → α) (zero : α) (P : Scene.Grid (ℝ × ℝ)) (gs : List (ℝ × ℝ → α)) (h : ℝ × ℝ → α) :
    (gs.map fun g => P.map fun row => row.map g).foldl (Scene.addGrid add zero) (some (P.map fun row => row.map h)) =
      some (P.map fun row => row.map fun r => (gs.map fun g => g r).foldl add (h r)) := by
  induction gs generalizing h with
  | nil => rfl
  | cons g gs ih =>
    rw [List.map_cons, List.foldl_cons]
    have : Scene.addGrid add zero (some (P.map fun row => row.map h)) (P.map fun row => row.map g) = some (P.map fun row => row.map fun r => add (h r) (g r)) := by
      simp only [Scene.addGrid, List.zipWith_map, List.zipWith_self]
    rw [this, ih]
    rfl

private theorem reduce_gradients (tx : PyDict Pt) (htx : tx ≠ []) (P : Scene.Grid (ℝ × ℝ)) (gradient : String × Pt → ℝ × ℝ → V2 F) :
    (Scene.reduceGrids (tx.map fun t => (t.1, .gradient (P.map fun row => row.map (gradient t))))).2 =
      some (P.map fun row => row.map fun r => (tx.map fun t => gradient t r).foldl (· + ·) ⟨0, 0⟩) := by
  have h := reduceGrids_eq true false (tx.map fun t => (t.1, ([] : Scene.Grid F), P.map fun row => row.map (gradient t)))
  rw [List.map_map, List.map_map, List.map_map] at h
  have h2 := congrArg Prod.snd h
  refine h2.trans ?_
  simp only [or_true, if_true]
  match tx, htx with
  | t :: tx, _ =>
    unfold sumGrids
    rw [List.map_cons, List.foldl_cons]
    have := foldl_maps (· + ·) (⟨0, 0⟩ : V2 F) P (tx.map gradient) fun r => ⟨0, 0⟩ + gradient t r
    rw [List.map_map] at this
    simp only [Function.comp_def, Scene.addGrid, List.map_map] at this ⊢
    rw [this]
    rfl

private theorem foldl_fin (gs : List Pt) (g : Pt) : (gs.map V2.fin).foldl (· + ·) (V2.fin g) = V2.fin ⟨g.x + (gs.map V2.x).sum, g.y + (gs.map V2.y).sum⟩ := by
  induction gs generalizing g with
  | nil => simp
  | cons h gs ih =>
    rw [List.map_cons, List.foldl_cons, show V2.fin g + V2.fin h = V2.fin (g + h) by ext <;> simp, ih]
    simp [add_assoc]

private theorem foldl_nan (gs : List (V2 F)) (g : V2 F) (h : g = ⟨F.nan, F.nan⟩ ∨ ⟨F.nan, F.nan⟩ ∈ gs) : gs.foldl (· + ·) g = ⟨F.nan, F.nan⟩ := by
  have hl : ∀ x : F, x + F.nan = F.nan := fun x => by cases x <;> rfl
  have hr : ∀ x : F, F.nan + x = F.nan := fun x => by cases x <;> rfl
  induction gs generalizing g with
  | nil => simpa using h
  | cons a gs ih =>
    rw [List.foldl_cons]
    refine ih _ ?_
    rcases h with rfl | h
    · left
      ext
      · exact hr _
      · exact hr _
    · rcases List.mem_cons.mp h with rfl | h
      · left
        ext
        · exact hl _
        · exact hl _
      · exact .inr h

private theorem sum_apply (v : String × Pt → (ℝ × ℝ →L[ℝ] ℝ)) (u : ℝ × ℝ) : ∀ ts : List (String × Pt), (ts.map fun t => v t).sum u = (ts.map fun t => v t u).sum
  | [] => rfl
  | t :: ts => by
    rw [List.map_cons, List.sum_cons, List.map_cons, List.sum_cons, ← sum_apply v u ts]
    rfl

private theorem sum_deriv (f : String × Pt → ℝ × ℝ → ℝ) (v : String × Pt → (ℝ × ℝ →L[ℝ] ℝ)) (r : ℝ × ℝ) :
    ∀ ts : List (String × Pt), (∀ t ∈ ts, HasFDerivAt (f t) (v t) r) → HasFDerivAt (fun q => (ts.map fun t => f t q).sum) (ts.map fun t => v t).sum r
  | [], _ => hasFDerivAt_const (0 : ℝ) r
  | t :: ts, h => by
    simp only [List.map_cons, List.sum_cons]
    exact (h t (by simp)).add (sum_deriv f v r ts fun t ht => h t (by simp [ht]))

section Gradient
variable (G : GraphLib) (hG : GraphContract G) (walls : List (Pt × Pt)) (hw : ∀ w ∈ walls, w.1 ≠ w.2) (lo hi : ℤ) (hlo : 0 ≤ lo)
  (hex : ∃ c, InRange walls.length lo hi c) (split : Key → ℕ → List Key) (key : Option Key)
  (E : Env) (he : 0 < E.eps) (ap : Option Bool) (hh : Hard E ap) (tol patch : ℝ) (kw : Rev.ActKw Rev.Coord) (kw' : ActKw) (hk : SameKw kw kw') (coef height : ℝ) (hc : 0 ≤ coef) (hht : 0 < height)
include hG hw hlo hex he hh hk hc hht

/-- **C143.** Without approximation, for transmitters out of finitely many lines: at almost every position the map of the gradient shows the Euclidean norm of the derivative of the
total power, and it is zero exactly if the total power is zero; where the gradient of some transmitter is NaN, the map shows zero. -/
theorem C143_gradient : ∃ L, Lines L ∧ ∀ tx rx : PyDict Pt, Distinct tx → tx ≠ [] → (∀ t ∈ tx, OffLines L t.2) →
    ∃ (total : ℝ × ℝ → ℝ) (gradient : String × Pt → ℝ × ℝ → V2 F) (cell : ℝ × ℝ → F),
      (∀ r : ℝ × ℝ, (wallScene tx [("rx", ⟨r.1, r.2⟩)] walls).accumulateOverPathsAll G split (imageMethod Key) { minOrder := lo, maxOrder := hi }
        ⟨E, F.fin tol, F.fin patch, ap, kw'⟩ key (powerFun E coef height) = .ok (F.fin (total r))) ∧
      (∀ P : Scene.Grid (ℝ × ℝ), Rev.accumulateOnReceiversGrid (wallScene tx rx walls) G { minOrder := lo, maxOrder := hi } ⟨E, F.fin tol, F.fin patch, ap, kw⟩ true false
        (Rev.receivedPower E (F.fin coef) (F.fin height)) (gridX P) (gridY P) = .ok (tx.map fun t => (t.1, .gradient (P.map fun row => row.map (gradient t))))) ∧
      (∀ P : Scene.Grid (ℝ × ℝ), gradientMap (wallScene tx rx walls) G { minOrder := lo, maxOrder := hi } ⟨E, F.fin tol, F.fin patch, ap, kw⟩
        (Rev.receivedPower E (F.fin coef) (F.fin height)) (gridX P) (gridY P) = .ok (some (P.map fun row => row.map cell))) ∧
      (∀ᵐ r : ℝ × ℝ, ∃ g : Pt, GradientAt total r (V2.fin g) ∧ cell r = F.fin (Real.sqrt (g.x ^ 2 + g.y ^ 2)) ∧ (cell r = 0 ↔ total r = 0)) ∧
      ∀ r, (∃ t ∈ tx, gradient t r = ⟨F.nan, F.nan⟩) → cell r = 0 := by
  haveI : (volume : Measure (ℝ × ℝ)).IsAddHaarMeasure := by rw [Measure.volume_eq_prod]; infer_instance
  obtain ⟨L, hL, hpos, -⟩ := lit_positions E.eps he walls hw lo hi hlo
  refine ⟨L, hL, fun tx rx ht htx hoff => ?_⟩
  obtain ⟨cs, -, -, hcm, -⟩ := cands_walls G hG tx rx walls lo hi hlo hex
  obtain ⟨value, gradient, points, accepted, q1, q2, q3, q4, q5⟩ := C100_receivers G hG tx rx ht walls lo hi hlo hex split key E ap hh tol patch kw kw' hk coef height hht
  choose! M hM h using hpos
  have hpts : ∀ t r c, points t r c = rpath t ⟨r.1, r.2⟩ (wallsAt walls c) := by
    intro t r c
    obtain ⟨loss, hl⟩ := q3 t r c
    exact (traceImage_iff hl).1
  have hacc : ∀ t, AlmostConstant volume (accepted t) := fun t =>
    accepted_const cs hcm _ _ (q4 t) fun c => accept_const (.const (V2.fin t)) moving_analytic walls _ c E ap hh tol patch kw'
  have hnd : tx.Nodup := List.Nodup.of_map Prod.fst ht
  let A : ℝ × ℝ → Finset ((String × Pt) × List ℤ) := fun r => (tx.toFinset ×ˢ cs.toFinset).filter fun i => i.2 ∈ accepted i.1.2 r
  let Pw : (String × Pt) × List ℤ → ℝ × ℝ → ℝ := fun i r => powerAlong E.eps coef height (rpath i.1.2 ⟨r.1, r.2⟩ (wallsAt walls i.2))
  have hsum : ∀ r, (tx.map fun t => value t r).sum = ∑ i ∈ A r, Pw i r := by
    intro r
    rw [Finset.sum_filter, Finset.sum_product, List.sum_toFinset _ hnd]
    refine congrArg List.sum (List.map_congr_left fun t htm => ?_)
    rw [(q5 t htm r).1, ← Finset.sum_filter]
    have : cs.toFinset.filter (fun c => c ∈ accepted t.2 r) = accepted t.2 r := by
      ext c
      simp only [Finset.mem_filter, List.mem_toFinset, and_iff_right_iff_imp]
      exact fun hc => (hcm c).mpr ((q4 t.2 r c).mp hc).1
    rw [this]
    exact Finset.sum_congr rfl fun c _ => by rw [hpts]
  have hA : AlmostConstant volume A := by
    have hall : ∀ᵐ r : ℝ × ℝ, ∀ t ∈ {t | t ∈ tx}, ∀ᶠ q in 𝓝 r, accepted t.2 q = accepted t.2 r := (ae_ball_iff (List.finite_toSet tx).countable).mpr fun t _ => hacc t.2
    filter_upwards [hall] with r hr
    have := (Filter.eventually_all_finite (List.finite_toSet tx)).mpr hr
    filter_upwards [this] with q hq
    refine Finset.filter_congr fun i hi => ?_
    rw [hq i.1 (List.mem_toFinset.mp (Finset.mem_product.mp hi).1)]
  have hMall : ∀ᵐ r : ℝ × ℝ, ∀ t ∈ {t | t ∈ tx}, OffLines (M t.2) ⟨r.1, r.2⟩ :=
    (ae_ball_iff (List.finite_toSet tx).countable).mpr fun t htm => C102_negligible (M t.2) (hM t.2 (hoff t htm))
  have hflat : FlatAtZero fun r => (tx.map fun t => value t r).sum := by
    refine flatAtZero_of_accepted A (tx.toFinset ×ˢ cs.toFinset) (fun q => Finset.filter_subset _ _) hA Pw
      (fun i _ => power_analytic (.const (V2.fin i.1.2)) moving_analytic (wallsAt walls i.2) E coef height hht) ?_ hsum
    filter_upwards [hMall] with y hy B hB v hv
    refine sum_const_zero B (fun i => wallsAt walls i.2) E.eps coef height (fun i => i.1.2) ⟨y.1, y.2⟩ (fun i hi => ?_) hv
    have hi' := Finset.mem_product.mp (hB hi)
    have htm := List.mem_toFinset.mp hi'.1
    exact h i.1.2 (hoff i.1 htm) _ (hy i.1 htm) i.2 ((hcm _).mp (List.mem_toFinset.mp hi'.2))
  have hgrad : ∀ᵐ r : ℝ × ℝ, ∀ t ∈ {t | t ∈ tx}, GradientAt (value t) r (gradient t r) := by
    refine (ae_ball_iff (List.finite_toSet tx).countable).mpr fun t htm => ?_
    filter_upwards [hacc t.2, C102_negligible (M t.2) (hM t.2 (hoff t htm))] with r hr hrM
    obtain ⟨v', h1, h2⟩ := (q5 t htm r).2.1 fun c hc => by
      rw [hpts]
      have := h t.2 (hoff t htm) _ hrM c hc
      exact ⟨(determined_iff _ _ _).mpr this.1, this.2⟩
    refine ⟨v', h1.congr_of_eventuallyEq ?_, h2⟩
    filter_upwards [hr] with z hz
    rw [(q5 t htm z).1, hz]
  refine ⟨fun r => (tx.map fun t => value t r).sum, gradient, fun r => gradientNorm ((tx.map fun t => gradient t r).foldl (· + ·) ⟨0, 0⟩), fun r => ?_, fun P => (q2 true P).2, fun P => ?_, ?_, ?_⟩
  · rw [C58_reduce, q1 r]
    simp only [Except.map, List.map_map, Function.comp_def]
    rw [show (tx.map fun t => F.fin (value t r)) = (tx.map fun t => value t r).map F.fin by rw [List.map_map]; rfl, F.sum_fin]
  · unfold gradientMap
    rw [(q2 true P).2]
    show Except.ok _ = _
    rw [reduce_gradients tx htx P gradient]
    simp [Function.comp_def]
  · filter_upwards [hgrad, hflat] with r hr hfl
    choose! v' hv1 hv2 using hr
    have hsumd : HasFDerivAt (fun q => (tx.map fun t => value t q).sum) (tx.map fun t => v' t).sum r := by
      exact sum_deriv value v' r tx hv1
    have hfold : (tx.map fun t => gradient t r).foldl (· + ·) (⟨0, 0⟩ : V2 F) = V2.fin ⟨(tx.map fun t => v' t).sum (1, 0), (tx.map fun t => v' t).sum (0, 1)⟩ := by
      have e : (tx.map fun t => gradient t r) = (tx.map fun t => (⟨v' t (1, 0), v' t (0, 1)⟩ : Pt)).map V2.fin := by
        rw [List.map_map]
        exact List.map_congr_left fun t htm => hv2 t htm
      rw [e, show (⟨0, 0⟩ : V2 F) = V2.fin ⟨0, 0⟩ by ext <;> simp [V2.fin, F.zero_eq], foldl_fin]
      have hlin : ∀ u : ℝ × ℝ, (tx.map fun t => v' t).sum u = (tx.map fun t => v' t u).sum := by
        exact fun u => sum_apply v' u tx
      simp only [List.map_map, Function.comp_def, zero_add, hlin]
    have hG' : GradientAt (fun q => (tx.map fun t => value t q).sum) r (V2.fin ⟨(tx.map fun t => v' t).sum (1, 0), (tx.map fun t => v' t).sum (0, 1)⟩) := ⟨_, hsumd, rfl⟩
    have hcell : gradientNorm (V2.fin ⟨(tx.map fun t => v' t).sum (1, 0), (tx.map fun t => v' t).sum (0, 1)⟩) =
        F.fin (Real.sqrt ((tx.map fun t => v' t).sum (1, 0) ^ 2 + (tx.map fun t => v' t).sum (0, 1) ^ 2)) := by
      unfold gradientNorm
      rw [V2.fin_norm']
      simp only [F.nanToNum, nrm, pow_two]
    refine ⟨_, hG', by rw [hfold, hcell], ?_⟩
    have hnn : ∀ q, 0 ≤ (tx.map fun t => value t q).sum := fun q => by
      rw [hsum]
      exact Finset.sum_nonneg fun i _ => powerAlong_nonneg _ hc _
    obtain ⟨g', e, hz⟩ := gradient_iff hG' hnn hfl.2
    rw [hfold, hcell, ← hz]
    have ex := congrArg V2.x e
    have ey := congrArg V2.y e
    simp only [V2.fin, F.fin.injEq] at ex ey
    rw [F.zero_eq, F.fin.injEq, ex, ey, Real.sqrt_eq_zero (by positivity)]
    constructor
    · intro h0
      ext
      · show g'.x = 0
        nlinarith [sq_nonneg g'.x, sq_nonneg g'.y]
      · show g'.y = 0
        nlinarith [sq_nonneg g'.x, sq_nonneg g'.y]
    · rintro rfl
      simp
  · rintro r ⟨t, htm, hn⟩
    show gradientNorm _ = 0
    rw [foldl_nan _ _ (.inr (List.mem_map.mpr ⟨t, htm, hn⟩)), F.zero_eq]
    rfl

end Gradient

/-- C143 applies to a mirror, with the reflection only: there is a transmitter, and a cell of the map of the gradient that is not zero. -/
example (E : Env) (he : 0 < E.eps) : ∃ (t : Pt) (r : ℝ × ℝ) (w : F), w ≠ 0 ∧
    gradientMap (wallScene [("tx", t)] [] [(⟨-5, 0⟩, ⟨5, 0⟩)]) refLib { minOrder := 1, maxOrder := 1 }
      ⟨E, F.fin (1 / 100), F.fin 0, some false, ⟨F.fin 100, Rev.hardSigmoid⟩⟩ (Rev.receivedPower E (F.fin (1 / 2)) (F.fin 1)) [[F.fin r.1]] [[F.fin r.2]] = .ok (some [[w]]) := by
  have hir : InRange 1 1 1 [0] := by simp [InRange, IsCandidate]
  obtain ⟨L, hL, h⟩ := C143_gradient refLib refLib_contract [(⟨-5, 0⟩, ⟨5, 0⟩)] (by simp; norm_num) 1 1 (by norm_num) ⟨[0], hir⟩ (fun (_ : Unit) _ => []) none E he
    (some false) (.inl rfl) (1 / 100) 0 ⟨F.fin 100, Rev.hardSigmoid⟩ ⟨F.fin 100, hardSigmoid⟩ (library_same (.inr ⟨rfl, rfl⟩)) (1 / 2) 1 (by norm_num) one_pos
  have hopen : IsOpen (Set.Ioo (-1 : ℝ) 1 ×ˢ Set.Ioo (1 : ℝ) 2) := isOpen_Ioo.prod isOpen_Ioo
  have hne : (Set.Ioo (-1 : ℝ) 1 ×ˢ Set.Ioo (1 : ℝ) 2).Nonempty := ⟨(0, 3 / 2), by norm_num⟩
  obtain ⟨t, htin, ht⟩ := (MeasureTheory.Measure.dense_of_ae (C102_negligible L hL)).inter_open_nonempty _ hopen hne
  obtain ⟨total, gradient, cell, h1, -, h3, h4, -⟩ := h [("tx", ⟨t.1, t.2⟩)] [] (by simp [Distinct]) (by simp) (by simpa using ht)
  obtain ⟨r, hrin, g, -, -, hz⟩ := (MeasureTheory.Measure.dense_of_ae h4).inter_open_nonempty _ hopen hne
  obtain ⟨v, hv, hv0⟩ := lit_power (Key := Unit) refLib refLib_contract [(⟨-5, 0⟩, ⟨5, 0⟩)] 1 1 (by norm_num) (fun _ _ => []) none E (some false) (.inl rfl) (1 / 100) 0 ⟨F.fin 100, hardSigmoid⟩ (1 / 2) 1
    (by norm_num) one_pos "tx" "rx" ⟨t.1, t.2⟩ ⟨r.1, r.2⟩ [0] hir
    (mirror_ok htin.1.1 htin.1.2 (lt_trans one_pos htin.2.1) hrin.1.1 hrin.1.2 (lt_trans one_pos hrin.2.1))
  have hvv : total r = v := by
    have := h1 r
    rw [C58_reduce, hv] at this
    have : F.sum ([("tx", "rx", F.fin v)].map fun e => e.2.2) = F.fin (total r) := Except.ok.inj this
    rw [show F.sum ([("tx", "rx", F.fin v)].map fun e => e.2.2) = F.fin v by
      rw [show ([("tx", "rx", F.fin v)].map fun e => e.2.2) = [v].map F.fin from rfl, F.sum_fin]; simp] at this
    exact (F.fin.inj this).symm
  refine ⟨⟨t.1, t.2⟩, r, cell r, fun e => hv0.ne' (hvv ▸ hz.mp e), ?_⟩
  simpa [gridX, gridY] using h3 [[r]]

/-! ## The loss that is differentiated -/

private theorem loss_worst (G : GraphLib) (tx rx : PyDict Pt) (hrx : rx ≠ []) (walls : List (Pt × Pt)) (split : Key → ℕ → List Key) (key : Option Key) (m : Scene.PathMethod Key) (o : Scene.Orders)
    (v : Scene.ValidOpts) (f : Scene.PathFun) (t : ℝ × ℝ) (power : String × Pt → ℝ) (gradient : String × Pt → V2 F) (out : F × V2 F)
    (h1 : (wallScene [("tx", ⟨t.1, t.2⟩)] rx walls).accumulateOverPaths G split m o v key f = .ok (rx.map fun r => ("tx", r.1, F.fin (power r))))
    (h2 : WorstServed rx power gradient out) : Figures.loss (wallScene tx rx walls) G split m o v key f ⟨F.fin t.1, F.fin t.2⟩ = .ok (.scalar out.1) := by
  have hs : (wallScene tx rx walls).withTransmitters [("tx", ⟨F.fin t.1, F.fin t.2⟩)] = .ok (wallScene [("tx", ⟨t.1, t.2⟩)] rx walls) := by
    rw [withTransmitters_one]; rfl
  rw [loss_eq G _ split m o v key f _ _ hs _ h1]
  have hl : rx.map power ≠ [] := by simpa using hrx
  obtain ⟨p, hp, hmin, e⟩ := C143_worst (rx.map power) hl
  obtain ⟨r0, hr0, hmin0, hv⟩ := h2.value
  obtain ⟨r1, hr1, rfl⟩ := List.mem_map.mp hp
  have hpp : power r1 = power r0 := le_antisymm (hmin _ (List.mem_map.mpr ⟨r0, hr0, rfl⟩)) (hmin0 r1 hr1)
  have e' : (rx.map power).map (fun p => Arr.scalar (F.fin p)) = ((rx.map fun r => ("tx", r.1, F.fin (power r))).map fun e => e.2.2).map .scalar := by
    simp [Function.comp_def]
  rw [e', objective_scalars] at e
  rw [Arr.scalar.inj e, hv, hpp]
  rfl

/-- **C143.** The loss that is differentiated in the animation is that loss: without approximation. -/
theorem C143_loss_hard (G : GraphLib) (hG : GraphContract G) (tx rx : PyDict Pt) (hr : Distinct rx) (hrx : rx ≠ []) (walls : List (Pt × Pt))
    (lo hi : ℤ) (hlo : 0 ≤ lo) (hex : ∃ c, InRange walls.length lo hi c) (split : Key → ℕ → List Key) (key : Option Key)
    (E : Env) (ap : Option Bool) (hh : Hard E ap) (tol patch : ℝ) (kw : Rev.ActKw Rev.Coord) (kw' : ActKw) (hk : SameKw kw kw')
    (coef height : ℝ) (hht : 0 < height) (t : ℝ × ℝ) : ∃ (v : F) (g : V2 F),
    Rev.valueAndGrad (Rev.powerLoss (wallScene tx rx walls) G { minOrder := lo, maxOrder := hi } ⟨E, F.fin tol, F.fin patch, ap, kw⟩
      (Rev.receivedPower E (F.fin coef) (F.fin height))) ⟨F.fin t.1, F.fin t.2⟩ = .ok (v, g) ∧
    Figures.loss (wallScene tx rx walls) G split (imageMethod Key) { minOrder := lo, maxOrder := hi } ⟨E, F.fin tol, F.fin patch, ap, kw'⟩ key (powerFun E coef height)
      ⟨F.fin t.1, F.fin t.2⟩ = .ok (.scalar v) := by
  obtain ⟨power, gradient, out, p1, -, p3, p4⟩ := C127_hard G hG tx rx hr hrx walls lo hi hlo hex split key E ap hh tol patch kw kw' hk coef height hht t
  exact ⟨out.1, out.2, p3, loss_worst G tx rx hrx walls split key _ _ _ _ t power gradient out p1 p4⟩

/-- **C143.** And with approximation. -/
theorem C143_loss_soft (G : GraphLib) (hG : GraphContract G) (tx rx : PyDict Pt) (hr : Distinct rx) (hrx : rx ≠ []) (walls : List (Pt × Pt))
    (lo hi : ℤ) (hlo : 0 ≤ lo) (hex : ∃ c, InRange walls.length lo hi c) (split : Key → ℕ → List Key) (key : Option Key)
    (E : Env) (ap : Option Bool) (hs : Soft E ap) (tol patch a : ℝ) (ha : 0 < a) (kw : Rev.ActKw Rev.Coord) (kw' : ActKw)
    (hk : LibraryActivation a kw kw') (coef height : ℝ) (hht : 0 < height) (t : ℝ × ℝ) : ∃ (v : F) (g : V2 F),
    Rev.valueAndGrad (Rev.powerLoss (wallScene tx rx walls) G { minOrder := lo, maxOrder := hi } ⟨E, F.fin tol, F.fin patch, ap, kw⟩
      (Rev.receivedPower E (F.fin coef) (F.fin height))) ⟨F.fin t.1, F.fin t.2⟩ = .ok (v, g) ∧
    Figures.loss (wallScene tx rx walls) G split (imageMethod Key) { minOrder := lo, maxOrder := hi } ⟨E, F.fin tol, F.fin patch, ap, kw'⟩ key (powerFun E coef height)
      ⟨F.fin t.1, F.fin t.2⟩ = .ok (.scalar v) := by
  obtain ⟨power, gradient, out, p1, -, p3, p4⟩ := C127_soft G hG tx rx hr hrx walls lo hi hlo hex split key E ap hs tol patch a ha kw kw' hk coef height hht t
  exact ⟨out.1, out.2, p3, loss_worst G tx rx hrx walls split key _ _ _ _ t power gradient out p1 p4⟩

/-! ## The two runs of the paper -/

/-- **C143.** In papers/eucap2024/plot_optimize_steps.py, the run with approximation makes a step at each frame, whereas the run without approximation makes none at the frames 20, 40, 60...:
the `continue` that is meant to skip the plot skips the step too. -/
theorem C143_runs {α : Type} (opt : Optimizer) (loss : Bool → α → V2 (Rev Rev.Coord) → Except PyErr (Rev Rev.Coord)) (alphas : List α) (c0 c1 : V2 F × opt.State)
    (out0 out1 : V2 F × opt.State) : paperRuns opt loss alphas.zipIdx (c0, c1) = .ok (out0, out1) ↔
      Rev.animate opt (loss false) ((alphas.zipIdx.filter fun a => !(a.2 % 20 == 0 && a.2 != 0)).map Prod.fst) c0 = .ok out0 ∧
      Rev.animate opt (loss true) alphas c1 = .ok out1 := by
  have gen : ∀ (n : ℕ) (c0 c1 : V2 F × opt.State), paperRuns opt loss (alphas.zipIdx n) (c0, c1) = .ok (out0, out1) ↔
      Rev.animate opt (loss false) (((alphas.zipIdx n).filter fun a => !(a.2 % 20 == 0 && a.2 != 0)).map Prod.fst) c0 = .ok out0 ∧
      Rev.animate opt (loss true) alphas c1 = .ok out1 := by
    induction alphas with
    | nil => intro n c0 c1; simp [paperRuns, Rev.animate]
    | cons a as ih =>
      intro n c0 c1
      rw [List.zipIdx_cons, List.filter_cons]
      simp only [paperRuns, Rev.animate, Bind.bind]
      have h1 : paperBody opt loss n a true c1 = Rev.optimizeStep opt (loss true a) c1 := by simp [paperBody]
      by_cases hn : n % 20 = 0 ∧ n ≠ 0
      · have h0 : paperBody opt loss n a false c0 = .ok c0 := by simp [paperBody, hn]
        rw [h0, h1, if_neg (by simp [hn])]
        cases hc : Rev.optimizeStep opt (loss true a) c1 with
        | error e => simp [Except.bind]
        | ok c1' => simpa [Except.bind] using ih (n + 1) c0 c1'
      · have h0 : paperBody opt loss n a false c0 = Rev.optimizeStep opt (loss false a) c0 := by
          unfold paperBody
          rw [if_neg fun h => hn ⟨h.1, h.2.1⟩]
        rw [h0, h1, if_pos (by rcases Classical.em (n % 20 = 0) with h | h <;> rcases Classical.em (n = 0) with h' | h' <;> simp_all), List.map_cons]
        simp only [Rev.animate, Bind.bind]
        cases hc0 : Rev.optimizeStep opt (loss false a) c0 with
        | error e => simp [Except.bind]
        | ok c0' =>
          cases hc : Rev.optimizeStep opt (loss true a) c1 with
          | error e => simp [Except.bind]
          | ok c1' => simpa [Except.bind] using ih (n + 1) c0' c1'
  exact gen 0 c0 c1

/-- With the hundred frames of the script, the run without approximation makes ninety-six steps. -/
example (alphas : List F) (h : alphas.length = 100) : ((alphas.zipIdx.filter fun a => !(a.2 % 20 == 0 && a.2 != 0)).map Prod.fst).length = 96 := by
  rw [List.length_map]
  have : (alphas.zipIdx.filter fun a => !(a.2 % 20 == 0 && a.2 != 0)).length = ((alphas.zipIdx.map Prod.snd).filter fun n => !(n % 20 == 0 && n != 0)).length := by
    rw [List.filter_map, List.length_map]
    rfl
  rw [this, List.zipIdx_map_snd, h]
  decide

end DiffeRT2d.Props
