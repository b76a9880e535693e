import Verif.Lemmas.Grid

/-! # Properties C47, C60, C62: grids of receivers and transmitters -/

namespace DiffeRT2d.Props
open Spec
open Classical

theorem gridKeys_length {Key : Type} (split : Key → ℕ → List Key) (h : SplitCount split) (key : Option Key) (n : ℕ) :
    (Scene.gridKeys split key n).length = n := by
  unfold Scene.gridKeys
  cases key with
  | none => simp
  | some k => simp [h k n]

theorem zip_map_of_forall₂ {α β γ δ : Type*} {R : α → β → Prop} (g : α → γ) (h : β → δ) {xs : List α} {ys : List β}
    (hR : List.Forall₂ R xs ys) (k : β → γ) (hk : ∀ x y, R x y → k y = g x) :
    ys.map (fun y => (k y, h y)) = (xs.map g).zip (ys.map h) := by
  induction hR with
  | nil => rfl
  | cons h1 _ ih => simp [ih, hk _ _ h1]

/-! ## Grid of receivers -/

/-- **C60.** The receivers grid accumulation has one array for each transmitter, in order, with the shape of the grid, and its entry
at each grid point is the value of `accumulate_over_paths` for that transmitter in the scene whose only
receiver is placed there. -/
theorem C60_receivers {Key : Type} (G : GraphLib) (hG : GraphContract G) (s : Scene) (tx : PyDict (V2 F))
    (hd : Distinct tx) (h1 : s.transmitters = .fromMapping tx) (o : Scene.Orders) (ho : NonNegative o)
    (cs : List (List ℤ)) (hcs : s.allPathCandidates G o = .ok cs) (hne : cs ≠ []) (split : Key → ℕ → List Key)
    (hsp : SplitCount split) (key : Option Key) (m : Scene.PathMethod Key) (hm : KeyIndependent m)
    (v : Scene.ValidOpts) (f : Scene.PathFun) (gradOp : (V2 F → F) → V2 F → V2 F) (X Y : Scene.Grid F)
    (out : List (String × Scene.GridOut))
    (h : s.accumulateOnReceiversGrid G split m o v key gradOp false false f X Y = .ok out) :
    ∃ zs : List (Scene.Grid F), out = (tx.map Prod.fst).zip (zs.map .value) ∧ zs.length = tx.length ∧
      (∀ z ∈ zs, gridShape z = gridShape X) ∧ gridShape Y = gridShape X ∧
      ∀ a b x y, gridAt X a b = some x → gridAt Y a b = some y →
        ∃ s', s.withReceivers [("rx", ⟨x, y⟩)] = .ok s' ∧ ∀ key', ∃ es,
          s'.accumulateOverPaths G split m o v key' f = .ok es ∧
          es.map (fun e => (e.1, some e.2.2)) = (tx.map Prod.fst).zip (zs.map fun z => gridAt z a b) := by
  rw [receivers_eq G s tx hd h1 o cs hcs] at h
  cases hrs : gridCore gradOp tx (fun t r => s.facc m v f t r 0 (cs.zip (Scene.gridKeys split key cs.length))) X Y with
  | error e => rw [hrs] at h; cases h
  | ok rs =>
    rw [hrs] at h
    cases h
    obtain ⟨hsh, hf⟩ := gridCore_ok hrs
    refine ⟨rs.map fun r => r.2.1, ?_, by simp [hf.length_eq], ?_, hsh.symm, ?_⟩
    · rw [List.map_map]
      exact zip_map_of_forall₂ Prod.fst _ hf Prod.fst (fun x y h => h.1)
    · intro z hz
      obtain ⟨r, hr, rfl⟩ := List.mem_map.mp hz
      obtain ⟨p, _, hp⟩ := forall₂_mem hf hr
      exact hp.2.1
    · intro a b x y hx hy
      have hw : s.withReceivers [("rx", ⟨x, y⟩)] = .ok { s with receivers := .fromMapping [("rx", ⟨x, y⟩)] } := by
        unfold Scene.withReceivers Scene.bindKwargs
        rw [if_neg (by simp)]; rfl
      refine ⟨_, hw, ?_⟩
      intro key'
      have hlen := gridKeys_length split hsp key cs.length
      have hd' : Distinct [("rx", (⟨x, y⟩ : V2 F))] := by simp [Distinct]
      refine ⟨(tx.zip rs).map fun q => (q.1.1, "rx", (gridAt q.2.2.1 a b).getD 0), ?_, ?_⟩
      · rw [accumulate_iff { s with receivers := .fromMapping [("rx", ⟨x, y⟩)] } m v G hG _ _ hd hd' h1 rfl o ho cs hcs hne split key' hm f _ hlen, product_single,
          List.forall₂_map_left_iff, List.forall₂_map_right_iff]
        have hz : List.Forall₂ (fun p q => q.1 = p ∧ ∃ w, gridAt q.2.2.1 a b = some w ∧
            s.facc m v f p.2 ⟨x, y⟩ 0 (cs.zip (Scene.gridKeys split key cs.length)) = .ok w) tx (tx.zip rs) := by
          clear hrs h1 hd hw
          induction hf with
          | nil => exact .nil
          | cons hr _ ih => exact .cons ⟨rfl, (hr.2.2.2 a b x y hx hy).1⟩ ih
        refine hz.imp ?_
        rintro p q ⟨rfl, w, hw1, hw2⟩
        refine ⟨rfl, rfl, ?_⟩
        simp only [hw1, Option.getD_some]
        rw [← hw2]
        exact facc_congr (by rfl) m v f _ _ _ _
      · rw [List.map_map, List.map_map]
        clear hrs h1 hd hw
        induction hf with
        | nil => rfl
        | cons hr _ ih =>
          obtain ⟨w, hw1, _⟩ := (hr.2.2.2 a b x y hx hy).1
          simp only [List.zip_cons_cons, List.map_cons, ih, Function.comp_apply, hw1, Option.getD_some]

/-- **C60.** If the grid arrays have one shape and the accumulation over paths succeeds at every grid point, then the
grid accumulation succeeds. -/
theorem C60_receivers_total {Key : Type} (G : GraphLib) (hG : GraphContract G) (s : Scene) (tx : PyDict (V2 F))
    (hd : Distinct tx) (h1 : s.transmitters = .fromMapping tx) (o : Scene.Orders) (ho : NonNegative o)
    (cs : List (List ℤ)) (hcs : s.allPathCandidates G o = .ok cs) (hne : cs ≠ []) (split : Key → ℕ → List Key)
    (hsp : SplitCount split) (key : Option Key) (m : Scene.PathMethod Key) (hm : KeyIndependent m)
    (v : Scene.ValidOpts) (f : Scene.PathFun) (gradOp : (V2 F → F) → V2 F → V2 F) (grad vag : Bool) (X Y : Scene.Grid F)
    (hsh : gridShape X = gridShape Y)
    (h : ∀ a b x y, gridAt X a b = some x → gridAt Y a b = some y →
      ∃ s' key' es, s.withReceivers [("rx", ⟨x, y⟩)] = .ok s' ∧ s'.accumulateOverPaths G split m o v key' f = .ok es) :
    ∃ out, s.accumulateOnReceiversGrid G split m o v key gradOp grad vag f X Y = .ok out := by
  rw [receivers_eq G s tx hd h1 o cs hcs]
  obtain ⟨rs, hrs⟩ := gridCore_total gradOp tx
    (fun t r => s.facc m v f t r 0 (cs.zip (Scene.gridKeys split key cs.length))) X Y hsh (by
    intro p hp a b x y hx hy
    obtain ⟨s', key', es, hs', hes⟩ := h a b x y hx hy
    have hw : s.withReceivers [("rx", ⟨x, y⟩)] = .ok { s with receivers := .fromMapping [("rx", ⟨x, y⟩)] } := by
      unfold Scene.withReceivers Scene.bindKwargs
      rw [if_neg (by simp)]; rfl
    rw [hw] at hs'
    cases hs'
    have hlen := gridKeys_length split hsp key cs.length
    have hd' : Distinct [("rx", (⟨x, y⟩ : V2 F))] := by simp [Distinct]
    rw [accumulate_iff { s with receivers := .fromMapping [("rx", ⟨x, y⟩)] } m v G hG _ _ hd hd' h1 rfl o ho cs hcs hne split key' hm f _ hlen, product_single,
      List.forall₂_map_left_iff] at hes
    obtain ⟨e, _, _, _, he⟩ := forall₂_mem hes.flip hp
    refine ⟨e.2.2, ?_⟩
    rw [← he]
    exact facc_congr (by rfl) m v f _ _ _ _)
  rw [hrs]
  exact ⟨_, rfl⟩

/-- **C60.** Without candidates, every entry is zero. -/
theorem C60_receivers_no_candidates {Key : Type} (G : GraphLib) (s : Scene) (tx : PyDict (V2 F))
    (hd : Distinct tx) (h1 : s.transmitters = .fromMapping tx) (o : Scene.Orders)
    (hcs : s.allPathCandidates G o = .ok []) (split : Key → ℕ → List Key) (key : Option Key)
    (m : Scene.PathMethod Key) (v : Scene.ValidOpts) (f : Scene.PathFun) (gradOp : (V2 F → F) → V2 F → V2 F)
    (X Y : Scene.Grid F) (out : List (String × Scene.GridOut))
    (h : s.accumulateOnReceiversGrid G split m o v key gradOp false false f X Y = .ok out) :
    ∃ zs : List (Scene.Grid F), out = (tx.map Prod.fst).zip (zs.map .value) ∧ zs.length = tx.length ∧
      ∀ z ∈ zs, gridShape z = gridShape X ∧ ∀ a b x y, gridAt X a b = some x → gridAt Y a b = some y →
        gridAt z a b = some 0 := by
  rw [receivers_eq G s tx hd h1 o [] hcs] at h
  cases hrs : gridCore gradOp tx (fun t r => s.facc m v f t r 0
      (([] : List (List ℤ)).zip (Scene.gridKeys split key ([] : List (List ℤ)).length))) X Y with
  | error e => rw [hrs] at h; cases h
  | ok rs =>
    rw [hrs] at h
    cases h
    obtain ⟨hsh, hf⟩ := gridCore_ok hrs
    refine ⟨rs.map fun r => r.2.1, ?_, by simp [hf.length_eq], ?_⟩
    · rw [List.map_map]
      exact zip_map_of_forall₂ Prod.fst _ hf Prod.fst (fun x y h => h.1)
    · intro z hz
      obtain ⟨r, hr, rfl⟩ := List.mem_map.mp hz
      obtain ⟨p, _, hp⟩ := forall₂_mem hf hr
      refine ⟨hp.2.1, ?_⟩
      intro a b x y hx hy
      obtain ⟨w, hw1, hw2⟩ := (hp.2.2.2 a b x y hx hy).1
      rw [hw1]
      cases hw2
      rfl

/-- **C60.** `reduce_all` gives the sum, over the transmitters in order, of their arrays (the scalar zero without transmitters). -/
theorem C60_receivers_reduce {Key : Type} (G : GraphLib) (s : Scene) (tx : PyDict (V2 F))
    (hd : Distinct tx) (h1 : s.transmitters = .fromMapping tx) (o : Scene.Orders) (cs : List (List ℤ))
    (hcs : s.allPathCandidates G o = .ok cs) (split : Key → ℕ → List Key) (key : Option Key)
    (m : Scene.PathMethod Key) (v : Scene.ValidOpts) (f : Scene.PathFun) (gradOp : (V2 F → F) → V2 F → V2 F)
    (X Y : Scene.Grid F) (zs : List (Scene.Grid F)) (hl : zs.length = tx.length)
    (h : s.accumulateOnReceiversGrid G split m o v key gradOp false false f X Y =
      .ok ((tx.map Prod.fst).zip (zs.map .value))) :
    ∃ Z, s.accumulateOnReceiversGridAll G split m o v key gradOp false false f X Y = .ok (Z, none) ∧
      (tx = [] → Z = none) ∧
      (tx ≠ [] → ∃ z, Z = some z ∧ gridShape z = gridShape X ∧
        ∀ a b, ∀ ws : List F, zs.map (fun z => gridAt z a b) = ws.map some → gridAt z a b = some (F.sum ws)) := by
  unfold Scene.accumulateOnReceiversGridAll
  rw [receivers_eq G s tx hd h1 o cs hcs] at h ⊢
  cases hrs : gridCore gradOp tx (fun t r => s.facc m v f t r 0 (cs.zip (Scene.gridKeys split key cs.length))) X Y with
  | error e => rw [hrs] at h; cases h
  | ok rs =>
    rw [hrs] at h
    obtain ⟨hsh, hf⟩ := gridCore_ok hrs
    have hzs : zs = rs.map fun r => r.2.1 := by
      injection h with h
      have h' := congrArg (List.map Prod.snd) h
      rw [List.map_snd_zip (by simp [hl])] at h'
      simp only [List.map_map, Function.comp_def] at h'
      have hv : Function.Injective Scene.GridOut.value := fun a b e => by injection e
      apply List.map_injective_iff.mpr hv
      rw [List.map_map]
      exact h'.symm
    refine ⟨sumGrids (· + ·) 0 zs, ?_, ?_⟩
    · show Except.ok (Scene.reduceGrids _) = _
      rw [reduceGrids_eq, hzs]
      simp
    · have hz : ∀ z ∈ zs, gridShape z = gridShape X := by
        intro z hz
        rw [hzs] at hz
        obtain ⟨r, hr, rfl⟩ := List.mem_map.mp hz
        obtain ⟨p, _, hp⟩ := forall₂_mem hf hr
        exact hp.2.1
      obtain ⟨a1, a2⟩ := sumGrids_spec (· + ·) (0 : F) zs _ hz
      constructor
      · intro e; apply a1; rw [e] at hl; exact List.length_eq_zero_iff.mp hl
      · intro e
        obtain ⟨Z, b1, b2, b3⟩ := a2 (fun e' => e (by rw [e'] at hl; exact List.length_eq_zero_iff.mp hl.symm))
        refine ⟨Z, b1, b2, ?_⟩
        intro a b ws hws
        have : List.Forall₂ (fun z w => gridAt z a b = some w) zs ws := by
          rw [← List.forall₂_eq_eq_eq, List.forall₂_map_left_iff, List.forall₂_map_right_iff] at hws
          exact hws
        have := b3 a b ws this
        rw [this]
        have := sum_eq_foldl id ws
        rw [List.map_id] at this
        exact congrArg some this

/-- **C62.** For every differentiation operator: `value_and_grad=True` wins over `grad`; its value parts are the plain
result, its gradient parts the result with `grad=True`; all calls fail alike. -/
theorem C62_receivers {Key : Type} (G : GraphLib) (s : Scene) (tx : PyDict (V2 F))
    (hd : Distinct tx) (h1 : s.transmitters = .fromMapping tx) (o : Scene.Orders) (cs : List (List ℤ))
    (hcs : s.allPathCandidates G o = .ok cs) (split : Key → ℕ → List Key) (key : Option Key)
    (m : Scene.PathMethod Key) (v : Scene.ValidOpts) (f : Scene.PathFun) (gradOp : (V2 F → F) → V2 F → V2 F)
    (X Y : Scene.Grid F) :
    let run := fun grad vag => s.accumulateOnReceiversGrid G split m o v key gradOp grad vag f X Y
    (∃ e, ∀ grad vag, run grad vag = .error e) ∨
    ∃ rs : List (String × Scene.Grid F × Scene.Grid (V2 F)),
      (∀ grad, run grad true = .ok (rs.map fun r => (r.1, .both r.2.1 r.2.2))) ∧
      run true false = .ok (rs.map fun r => (r.1, .gradient r.2.2)) ∧
      run false false = .ok (rs.map fun r => (r.1, .value r.2.1)) := by
  intro run
  have hrun : ∀ grad vag, run grad vag = _ := fun grad vag => receivers_eq G s tx hd h1 o cs hcs split key m v f gradOp grad vag X Y
  cases hrs : gridCore gradOp tx (fun t r => s.facc m v f t r 0 (cs.zip (Scene.gridKeys split key cs.length))) X Y with
  | error e => left; exact ⟨e, fun grad vag => by rw [hrun, hrs]; rfl⟩
  | ok rs =>
    right
    refine ⟨rs, fun grad => ?_, ?_, ?_⟩
    · rw [hrun, hrs]; rfl
    · rw [hrun, hrs]; rfl
    · rw [hrun, hrs]; rfl

/-- **C62.** The gradient at a grid point is that of the function which maps a position to the value of
`accumulate_over_paths` when the only receiver is there. -/
theorem C62_receivers_gradient {Key : Type} (G : GraphLib) (hG : GraphContract G) (s : Scene) (tx : PyDict (V2 F))
    (hd : Distinct tx) (h1 : s.transmitters = .fromMapping tx) (o : Scene.Orders) (ho : NonNegative o)
    (cs : List (List ℤ)) (hcs : s.allPathCandidates G o = .ok cs) (hne : cs ≠ []) (split : Key → ℕ → List Key)
    (hsp : SplitCount split) (key : Option Key) (m : Scene.PathMethod Key) (hm : KeyIndependent m)
    (v : Scene.ValidOpts) (f : Scene.PathFun) (gradOp : (V2 F → F) → V2 F → V2 F) (X Y : Scene.Grid F)
    (out : List (String × Scene.GridOut))
    (h : s.accumulateOnReceiversGrid G split m o v key gradOp true false f X Y = .ok out)
    (i : ℕ) (name : String) (p : V2 F) (hi : tx[i]? = some (name, p)) :
    ∃ dz φ, out[i]? = some (name, .gradient dz) ∧ gridShape dz = gridShape X ∧
      (∀ q s' key' es, s.withReceivers [("rx", q)] = .ok s' → s'.accumulateOverPaths G split m o v key' f = .ok es →
        (es[i]?.map fun e => e.2.2) = some (φ q)) ∧
      ∀ a b x y, gridAt X a b = some x → gridAt Y a b = some y → gridAt dz a b = some (gradOp φ ⟨x, y⟩) := by
  rw [receivers_eq G s tx hd h1 o cs hcs] at h
  cases hrs : gridCore gradOp tx (fun t r => s.facc m v f t r 0 (cs.zip (Scene.gridKeys split key cs.length))) X Y with
  | error e => rw [hrs] at h; cases h
  | ok rs =>
    rw [hrs] at h
    cases h
    obtain ⟨hsh, hf⟩ := gridCore_ok hrs
    obtain ⟨r, hr, e1, e2, e3, e4⟩ := forall₂_get hf hi
    refine ⟨r.2.2, orNan fun q => s.facc m v f p q 0 (cs.zip (Scene.gridKeys split key cs.length)), ?_, e3, ?_, ?_⟩
    · rw [List.getElem?_map, hr]
      simp only [Option.map_some, e1]
      rfl
    · intro q s' key' es hs' hes
      have hw : s.withReceivers [("rx", q)] = .ok { s with receivers := .fromMapping [("rx", q)] } := by
        unfold Scene.withReceivers Scene.bindKwargs
        rw [if_neg (by simp)]; rfl
      rw [hw] at hs'
      cases hs'
      have hlen := gridKeys_length split hsp key cs.length
      have hd' : Distinct [("rx", q)] := by simp [Distinct]
      rw [accumulate_iff { s with receivers := .fromMapping [("rx", q)] } m v G hG _ _ hd hd' h1 rfl o ho cs hcs hne split key' hm f _ hlen, product_single,
        List.forall₂_map_left_iff] at hes
      obtain ⟨e, he, _, _, hfe⟩ := forall₂_get hes hi
      rw [he]
      simp only [Option.map_some, Option.some.injEq]
      have : s.facc m v f p q 0 (cs.zip (Scene.gridKeys split key cs.length)) = .ok e.2.2 := by
        rw [← hfe]; exact facc_congr (by rfl) m v f _ _ _ _
      simp only [orNan, this]
    · intro a b x y hx hy
      exact (e4 a b x y hx hy).2

/-- **C62.** With `reduce_all`, `value_and_grad` sums both parts: the values as without gradients, and the gradients
as with `grad=True`, pointwise in order. -/
theorem C62_receivers_reduce {Key : Type} (G : GraphLib) (s : Scene) (tx : PyDict (V2 F))
    (hd : Distinct tx) (h1 : s.transmitters = .fromMapping tx) (o : Scene.Orders) (cs : List (List ℤ))
    (hcs : s.allPathCandidates G o = .ok cs) (split : Key → ℕ → List Key) (key : Option Key)
    (m : Scene.PathMethod Key) (v : Scene.ValidOpts) (f : Scene.PathFun) (gradOp : (V2 F → F) → V2 F → V2 F)
    (X Y : Scene.Grid F) (rs : List (String × Scene.Grid F × Scene.Grid (V2 F)))
    (h : s.accumulateOnReceiversGrid G split m o v key gradOp false true f X Y =
      .ok (rs.map fun r => (r.1, .both r.2.1 r.2.2))) :
    ∃ Z dZ,
      (∀ grad, s.accumulateOnReceiversGridAll G split m o v key gradOp grad true f X Y = .ok (Z, dZ)) ∧
      s.accumulateOnReceiversGridAll G split m o v key gradOp false false f X Y = .ok (Z, none) ∧
      s.accumulateOnReceiversGridAll G split m o v key gradOp true false f X Y = .ok (none, dZ) ∧
      (rs = [] → Z = none ∧ dZ = none) ∧
      (rs ≠ [] → ∃ z dz, Z = some z ∧ dZ = some dz ∧ gridShape z = gridShape X ∧ gridShape dz = gridShape X ∧
        ∀ a b, (∀ ws : List F, rs.map (fun r => gridAt r.2.1 a b) = ws.map some → gridAt z a b = some (F.sum ws)) ∧
          (∀ ws : List (V2 F), rs.map (fun r => gridAt r.2.2 a b) = ws.map some →
            gridAt dz a b = some (ws.foldl (· + ·) ⟨0, 0⟩))) := by
  unfold Scene.accumulateOnReceiversGridAll
  simp only [receivers_eq G s tx hd h1 o cs hcs] at h ⊢
  cases hrs : gridCore gradOp tx (fun t r => s.facc m v f t r 0 (cs.zip (Scene.gridKeys split key cs.length))) X Y with
  | error e => rw [hrs] at h; cases h
  | ok rs' =>
    rw [hrs] at h
    obtain ⟨hsh, hf⟩ := gridCore_ok hrs
    have hrr : rs' = rs := by
      injection h with h
      refine List.map_injective_iff.mpr ?_ h
      rintro ⟨a, b, c⟩ ⟨a', b', c'⟩ e
      simp only [gridSel, if_true, Prod.mk.injEq, Scene.GridOut.both.injEq] at e
      obtain ⟨rfl, rfl, rfl⟩ := e
      rfl
    subst hrr
    refine ⟨sumGrids (· + ·) 0 (rs'.map fun r => r.2.1), sumGrids (· + ·) ⟨0, 0⟩ (rs'.map fun r => r.2.2),
      fun grad => ?_, ?_, ?_, ?_, ?_⟩
    · show Except.ok (Scene.reduceGrids _) = _
      rw [reduceGrids_eq]; simp
    · show Except.ok (Scene.reduceGrids _) = _
      rw [reduceGrids_eq]; simp
    · show Except.ok (Scene.reduceGrids _) = _
      rw [reduceGrids_eq]; simp
    · rintro rfl; exact ⟨rfl, rfl⟩
    · intro hne
      have hz1 : ∀ z ∈ rs'.map (fun r => r.2.1), gridShape z = gridShape X := by
        intro z hz
        obtain ⟨r, hr, rfl⟩ := List.mem_map.mp hz
        obtain ⟨p, _, hp⟩ := forall₂_mem hf hr
        exact hp.2.1
      have hz2 : ∀ z ∈ rs'.map (fun r => r.2.2), gridShape z = gridShape X := by
        intro z hz
        obtain ⟨r, hr, rfl⟩ := List.mem_map.mp hz
        obtain ⟨p, _, hp⟩ := forall₂_mem hf hr
        exact hp.2.2.1
      obtain ⟨Z, b1, b2, b3⟩ := (sumGrids_spec (· + ·) (0 : F) _ _ hz1).2 (by simpa using hne)
      obtain ⟨dZ, c1, c2, c3⟩ := (sumGrids_spec (· + ·) (⟨0, 0⟩ : V2 F) _ _ hz2).2 (by simpa using hne)
      refine ⟨Z, dZ, b1, c1, b2, c2, fun a b => ⟨fun ws hws => ?_, fun ws hws => ?_⟩⟩
      · have h3 : List.Forall₂ (fun z w => gridAt z a b = some w) (rs'.map fun r => r.2.1) ws := by
          rw [← List.forall₂_eq_eq_eq, List.forall₂_map_left_iff, List.forall₂_map_right_iff] at hws
          rw [List.forall₂_map_left_iff]
          exact hws
        rw [b3 a b ws h3]
        have := sum_eq_foldl id ws
        rw [List.map_id] at this
        exact congrArg some this
      · apply c3 a b ws
        rw [← List.forall₂_eq_eq_eq, List.forall₂_map_left_iff, List.forall₂_map_right_iff] at hws
        rw [List.forall₂_map_left_iff]
        exact hws

/-- **C47.** There is a sequence of pairwise distinct keys derived from the user's key such that, in every grid
accumulation, the entry at a grid point is the sum over the candidates of the validity times the
value for the path traced with the key of that candidate. -/
theorem C47_receivers_grid : ∃ ks : ℕ → KeyTerm, Function.Injective ks ∧ (∀ n, ks n ≠ .user) ∧
    ∀ (G : GraphLib), GraphContract G → ∀ (s : Scene) (tx : PyDict (V2 F)), Distinct tx →
      s.transmitters = .fromMapping tx → ∀ (o : Scene.Orders), NonNegative o →
      ∀ (cs : List (List ℤ)), s.allPathCandidates G o = .ok cs →
      ∀ (m : Scene.PathMethod KeyTerm) (v : Scene.ValidOpts) (f : Scene.PathFun) (gradOp : (V2 F → F) → V2 F → V2 F)
        (X Y : Scene.Grid F) (out : List (String × Scene.GridOut)),
        s.accumulateOnReceiversGrid G KeyTerm.split m o v (some .user) gradOp false false f X Y = .ok out →
        ∀ (i : ℕ) (name : String) (p : V2 F) (a b : ℕ) (x y : F), tx[i]? = some (name, p) →
          gridAt X a b = some x → gridAt Y a b = some y →
          ∃ z w, ∃ ps : List (Path × Truthy), out[i]? = some (name, .value z) ∧ gridAt z a b = some w ∧ ps.length = cs.length ∧
            (∀ j c q, cs[j]? = some c → ps[j]? = some q → TracedAs s m v (some (ks j)) p ⟨x, y⟩ c q.1 q.2) ∧
            w = F.sum ((cs.zip ps).map fun cq => cq.2.2.toF * f p ⟨x, y⟩ cq.2.1 (objectsAt s cq.1)) := by
  refine ⟨fun n => .child .user n, fun a b h => by injection h, fun n => by simp, ?_⟩
  intro G hG s tx hd h1 o ho cs hcs m v f gradOp X Y out h i name p a b x y hi hx hy
  obtain ⟨cs', hcs', hc⟩ := orders_candidates G hG s o ho
  rw [hcs] at hcs'; cases hcs'
  rw [receivers_eq G s tx hd h1 o cs hcs] at h
  cases hrs : gridCore gradOp tx
      (fun t r => s.facc m v f t r 0 (cs.zip (Scene.gridKeys KeyTerm.split (some .user) cs.length))) X Y with
  | error e => rw [hrs] at h; cases h
  | ok rs =>
    rw [hrs] at h
    cases h
    obtain ⟨hsh, hf⟩ := gridCore_ok hrs
    obtain ⟨r, hr, e1, e2, e3, e4⟩ := forall₂_get hf hi
    obtain ⟨w, hw1, hw2⟩ := (e4 a b x y hx hy).1
    have hks : Scene.gridKeys KeyTerm.split (some .user) cs.length =
        (List.range cs.length).map fun n => some (KeyTerm.child .user n) := by
      simp [Scene.gridKeys, KeyTerm.split, Function.comp_def]
    rw [hks, facc_ok] at hw2
    obtain ⟨ys, hys, hsum⟩ := hw2
    have hyl : ys.length = cs.length := by
      have := hys.length_eq
      simpa using this.symm
    have hturn : ∀ j c q, cs[j]? = some c → ys[j]? = some q → q.1 = objectsAt s c ∧
        TracedAs s m v (some (.child .user j)) p ⟨x, y⟩ c q.2.1 q.2.2 := by
      intro j c q hj hq
      have hjl := (List.getElem?_eq_some_iff.mp hj).1
      have hz : (cs.zip ((List.range cs.length).map fun n => some (KeyTerm.child .user n)))[j]? =
          some (c, some (.child .user j)) := by
        rw [List.getElem?_zip_eq_some]
        refine ⟨hj, ?_⟩
        simp [hjl]
      obtain ⟨q', hq', a1, a2, a3⟩ := forall₂_get hys hz
      rw [hq] at hq'
      cases hq'
      rw [interacting_eq s c (hc c (List.mem_of_getElem? hj))] at a1
      injection a1 with a1
      rw [← a1] at a2 a3
      exact ⟨a1.symm, a2, a3⟩
    refine ⟨r.2.1, w, ys.map Prod.snd, ?_, hw1, by simp [hyl], ?_, ?_⟩
    · rw [List.getElem?_map, hr]
      simp only [Option.map_some, e1]
      rfl
    · intro j c q hj hq
      rw [List.getElem?_map] at hq
      cases hy' : ys[j]? with
      | none => rw [hy'] at hq; cases hq
      | some q' =>
        rw [hy'] at hq
        cases hq
        exact (hturn j c q' hj hy').2
    · rw [hsum, sum_eq_foldl (fun q : List Obj × Path × Truthy => q.2.2.toF * f p ⟨x, y⟩ q.2.1 q.1) ys]
      congr 1
      apply List.ext_getElem?
      intro j
      rw [List.getElem?_map, List.getElem?_map]
      cases hj : cs[j]? with
      | none =>
        have hge := List.getElem?_eq_none_iff.mp hj
        rw [List.getElem?_eq_none_iff.mpr (by omega), List.getElem?_eq_none_iff.mpr (by simp; omega)]
        rfl
      | some c =>
        have hjl := (List.getElem?_eq_some_iff.mp hj).1
        have hq := List.getElem?_eq_getElem (l := ys) (i := j) (by omega)
        have hz : (cs.zip (ys.map Prod.snd))[j]? = some (c, (ys[j]'(by omega)).2) := by
          rw [List.getElem?_zip_eq_some]
          exact ⟨hj, by rw [List.getElem?_map, hq]; rfl⟩
        rw [hq, hz]
        simp only [Option.map_some]
        rw [(hturn j c _ hj hq).1]

/-! ## Grid of transmitters -/

/-- **C60.** The transmitters grid accumulation has one array for each receiver, in order, with the shape of the grid, and its entry
at each grid point is the value of `accumulate_over_paths` for that receiver in the scene whose only
transmitter is placed there. -/
theorem C60_transmitters {Key : Type} (G : GraphLib) (hG : GraphContract G) (s : Scene) (rx : PyDict (V2 F))
    (hd : Distinct rx) (h1 : s.receivers = .fromMapping rx) (o : Scene.Orders) (ho : NonNegative o)
    (cs : List (List ℤ)) (hcs : s.allPathCandidates G o = .ok cs) (hne : cs ≠ []) (split : Key → ℕ → List Key)
    (hsp : SplitCount split) (key : Option Key) (m : Scene.PathMethod Key) (hm : KeyIndependent m)
    (v : Scene.ValidOpts) (f : Scene.PathFun) (gradOp : (V2 F → F) → V2 F → V2 F) (X Y : Scene.Grid F)
    (out : List (String × Scene.GridOut))
    (h : s.accumulateOnTransmittersGrid G split m o v key gradOp false false f X Y = .ok out) :
    ∃ zs : List (Scene.Grid F), out = (rx.map Prod.fst).zip (zs.map .value) ∧ zs.length = rx.length ∧
      (∀ z ∈ zs, gridShape z = gridShape X) ∧ gridShape Y = gridShape X ∧
      ∀ a b x y, gridAt X a b = some x → gridAt Y a b = some y →
        ∃ s', s.withTransmitters [("tx", ⟨x, y⟩)] = .ok s' ∧ ∀ key', ∃ es,
          s'.accumulateOverPaths G split m o v key' f = .ok es ∧
          es.map (fun e => (e.2.1, some e.2.2)) = (rx.map Prod.fst).zip (zs.map fun z => gridAt z a b) := by
  rw [transmitters_eq G s rx hd h1 o cs hcs] at h
  cases hrs : gridCore gradOp rx (fun r t => s.facc m v f t r 0 (cs.zip (Scene.gridKeys split key cs.length))) X Y with
  | error e => rw [hrs] at h; cases h
  | ok rs =>
    rw [hrs] at h
    cases h
    obtain ⟨hsh, hf⟩ := gridCore_ok hrs
    refine ⟨rs.map fun r => r.2.1, ?_, by simp [hf.length_eq], ?_, hsh.symm, ?_⟩
    · rw [List.map_map]
      exact zip_map_of_forall₂ Prod.fst _ hf Prod.fst (fun x y h => h.1)
    · intro z hz
      obtain ⟨r, hr, rfl⟩ := List.mem_map.mp hz
      obtain ⟨p, _, hp⟩ := forall₂_mem hf hr
      exact hp.2.1
    · intro a b x y hx hy
      have hw : s.withTransmitters [("tx", ⟨x, y⟩)] = .ok { s with transmitters := .fromMapping [("tx", ⟨x, y⟩)] } := by
        unfold Scene.withTransmitters Scene.bindKwargs
        rw [if_neg (by simp)]; rfl
      refine ⟨_, hw, ?_⟩
      intro key'
      have hlen := gridKeys_length split hsp key cs.length
      have hd' : Distinct [("tx", (⟨x, y⟩ : V2 F))] := by simp [Distinct]
      refine ⟨(rx.zip rs).map fun q => ("tx", q.1.1, (gridAt q.2.2.1 a b).getD 0), ?_, ?_⟩
      · rw [accumulate_iff { s with transmitters := .fromMapping [("tx", ⟨x, y⟩)] } m v G hG _ _ hd' hd rfl h1 o ho cs hcs hne split key' hm f _ hlen, single_product,
          List.forall₂_map_left_iff, List.forall₂_map_right_iff]
        have hz : List.Forall₂ (fun p q => q.1 = p ∧ ∃ w, gridAt q.2.2.1 a b = some w ∧
            s.facc m v f ⟨x, y⟩ p.2 0 (cs.zip (Scene.gridKeys split key cs.length)) = .ok w) rx (rx.zip rs) := by
          clear hrs h1 hd hw
          induction hf with
          | nil => exact .nil
          | cons hr _ ih => exact .cons ⟨rfl, (hr.2.2.2 a b x y hx hy).1⟩ ih
        refine hz.imp ?_
        rintro p q ⟨rfl, w, hw1, hw2⟩
        refine ⟨rfl, rfl, ?_⟩
        simp only [hw1, Option.getD_some]
        rw [← hw2]
        exact facc_congr (by rfl) m v f _ _ _ _
      · rw [List.map_map, List.map_map]
        clear hrs h1 hd hw
        induction hf with
        | nil => rfl
        | cons hr _ ih =>
          obtain ⟨w, hw1, _⟩ := (hr.2.2.2 a b x y hx hy).1
          simp only [List.zip_cons_cons, List.map_cons, ih, Function.comp_apply, hw1, Option.getD_some]

/-- **C60.** If the grid arrays have one shape and the accumulation over paths succeeds at every grid point, then the
grid accumulation succeeds. -/
theorem C60_transmitters_total {Key : Type} (G : GraphLib) (hG : GraphContract G) (s : Scene) (rx : PyDict (V2 F))
    (hd : Distinct rx) (h1 : s.receivers = .fromMapping rx) (o : Scene.Orders) (ho : NonNegative o)
    (cs : List (List ℤ)) (hcs : s.allPathCandidates G o = .ok cs) (hne : cs ≠ []) (split : Key → ℕ → List Key)
    (hsp : SplitCount split) (key : Option Key) (m : Scene.PathMethod Key) (hm : KeyIndependent m)
    (v : Scene.ValidOpts) (f : Scene.PathFun) (gradOp : (V2 F → F) → V2 F → V2 F) (grad vag : Bool) (X Y : Scene.Grid F)
    (hsh : gridShape X = gridShape Y)
    (h : ∀ a b x y, gridAt X a b = some x → gridAt Y a b = some y →
      ∃ s' key' es, s.withTransmitters [("tx", ⟨x, y⟩)] = .ok s' ∧ s'.accumulateOverPaths G split m o v key' f = .ok es) :
    ∃ out, s.accumulateOnTransmittersGrid G split m o v key gradOp grad vag f X Y = .ok out := by
  rw [transmitters_eq G s rx hd h1 o cs hcs]
  obtain ⟨rs, hrs⟩ := gridCore_total gradOp rx
    (fun r t => s.facc m v f t r 0 (cs.zip (Scene.gridKeys split key cs.length))) X Y hsh (by
    intro p hp a b x y hx hy
    obtain ⟨s', key', es, hs', hes⟩ := h a b x y hx hy
    have hw : s.withTransmitters [("tx", ⟨x, y⟩)] = .ok { s with transmitters := .fromMapping [("tx", ⟨x, y⟩)] } := by
      unfold Scene.withTransmitters Scene.bindKwargs
      rw [if_neg (by simp)]; rfl
    rw [hw] at hs'
    cases hs'
    have hlen := gridKeys_length split hsp key cs.length
    have hd' : Distinct [("tx", (⟨x, y⟩ : V2 F))] := by simp [Distinct]
    rw [accumulate_iff { s with transmitters := .fromMapping [("tx", ⟨x, y⟩)] } m v G hG _ _ hd' hd rfl h1 o ho cs hcs hne split key' hm f _ hlen, single_product,
      List.forall₂_map_left_iff] at hes
    obtain ⟨e, _, _, _, he⟩ := forall₂_mem hes.flip hp
    refine ⟨e.2.2, ?_⟩
    rw [← he]
    exact facc_congr (by rfl) m v f _ _ _ _)
  rw [hrs]
  exact ⟨_, rfl⟩

/-- **C60.** Without candidates, every entry is zero. -/
theorem C60_transmitters_no_candidates {Key : Type} (G : GraphLib) (s : Scene) (rx : PyDict (V2 F))
    (hd : Distinct rx) (h1 : s.receivers = .fromMapping rx) (o : Scene.Orders)
    (hcs : s.allPathCandidates G o = .ok []) (split : Key → ℕ → List Key) (key : Option Key)
    (m : Scene.PathMethod Key) (v : Scene.ValidOpts) (f : Scene.PathFun) (gradOp : (V2 F → F) → V2 F → V2 F)
    (X Y : Scene.Grid F) (out : List (String × Scene.GridOut))
    (h : s.accumulateOnTransmittersGrid G split m o v key gradOp false false f X Y = .ok out) :
    ∃ zs : List (Scene.Grid F), out = (rx.map Prod.fst).zip (zs.map .value) ∧ zs.length = rx.length ∧
      ∀ z ∈ zs, gridShape z = gridShape X ∧ ∀ a b x y, gridAt X a b = some x → gridAt Y a b = some y →
        gridAt z a b = some 0 := by
  rw [transmitters_eq G s rx hd h1 o [] hcs] at h
  cases hrs : gridCore gradOp rx (fun r t => s.facc m v f t r 0
      (([] : List (List ℤ)).zip (Scene.gridKeys split key ([] : List (List ℤ)).length))) X Y with
  | error e => rw [hrs] at h; cases h
  | ok rs =>
    rw [hrs] at h
    cases h
    obtain ⟨hsh, hf⟩ := gridCore_ok hrs
    refine ⟨rs.map fun r => r.2.1, ?_, by simp [hf.length_eq], ?_⟩
    · rw [List.map_map]
      exact zip_map_of_forall₂ Prod.fst _ hf Prod.fst (fun x y h => h.1)
    · intro z hz
      obtain ⟨r, hr, rfl⟩ := List.mem_map.mp hz
      obtain ⟨p, _, hp⟩ := forall₂_mem hf hr
      refine ⟨hp.2.1, ?_⟩
      intro a b x y hx hy
      obtain ⟨w, hw1, hw2⟩ := (hp.2.2.2 a b x y hx hy).1
      rw [hw1]
      cases hw2
      rfl

/-- **C60.** `reduce_all` gives the sum, over the receivers in order, of their arrays (the scalar zero without receivers). -/
theorem C60_transmitters_reduce {Key : Type} (G : GraphLib) (s : Scene) (rx : PyDict (V2 F))
    (hd : Distinct rx) (h1 : s.receivers = .fromMapping rx) (o : Scene.Orders) (cs : List (List ℤ))
    (hcs : s.allPathCandidates G o = .ok cs) (split : Key → ℕ → List Key) (key : Option Key)
    (m : Scene.PathMethod Key) (v : Scene.ValidOpts) (f : Scene.PathFun) (gradOp : (V2 F → F) → V2 F → V2 F)
    (X Y : Scene.Grid F) (zs : List (Scene.Grid F)) (hl : zs.length = rx.length)
    (h : s.accumulateOnTransmittersGrid G split m o v key gradOp false false f X Y =
      .ok ((rx.map Prod.fst).zip (zs.map .value))) :
    ∃ Z, s.accumulateOnTransmittersGridAll G split m o v key gradOp false false f X Y = .ok (Z, none) ∧
      (rx = [] → Z = none) ∧
      (rx ≠ [] → ∃ z, Z = some z ∧ gridShape z = gridShape X ∧
        ∀ a b, ∀ ws : List F, zs.map (fun z => gridAt z a b) = ws.map some → gridAt z a b = some (F.sum ws)) := by
  unfold Scene.accumulateOnTransmittersGridAll
  rw [transmitters_eq G s rx hd h1 o cs hcs] at h ⊢
  cases hrs : gridCore gradOp rx (fun r t => s.facc m v f t r 0 (cs.zip (Scene.gridKeys split key cs.length))) X Y with
  | error e => rw [hrs] at h; cases h
  | ok rs =>
    rw [hrs] at h
    obtain ⟨hsh, hf⟩ := gridCore_ok hrs
    have hzs : zs = rs.map fun r => r.2.1 := by
      injection h with h
      have h' := congrArg (List.map Prod.snd) h
      rw [List.map_snd_zip (by simp [hl])] at h'
      simp only [List.map_map, Function.comp_def] at h'
      have hv : Function.Injective Scene.GridOut.value := fun a b e => by injection e
      apply List.map_injective_iff.mpr hv
      rw [List.map_map]
      exact h'.symm
    refine ⟨sumGrids (· + ·) 0 zs, ?_, ?_⟩
    · show Except.ok (Scene.reduceGrids _) = _
      rw [reduceGrids_eq, hzs]
      simp
    · have hz : ∀ z ∈ zs, gridShape z = gridShape X := by
        intro z hz
        rw [hzs] at hz
        obtain ⟨r, hr, rfl⟩ := List.mem_map.mp hz
        obtain ⟨p, _, hp⟩ := forall₂_mem hf hr
        exact hp.2.1
      obtain ⟨a1, a2⟩ := sumGrids_spec (· + ·) (0 : F) zs _ hz
      constructor
      · intro e; apply a1; rw [e] at hl; exact List.length_eq_zero_iff.mp hl
      · intro e
        obtain ⟨Z, b1, b2, b3⟩ := a2 (fun e' => e (by rw [e'] at hl; exact List.length_eq_zero_iff.mp hl.symm))
        refine ⟨Z, b1, b2, ?_⟩
        intro a b ws hws
        have : List.Forall₂ (fun z w => gridAt z a b = some w) zs ws := by
          rw [← List.forall₂_eq_eq_eq, List.forall₂_map_left_iff, List.forall₂_map_right_iff] at hws
          exact hws
        have := b3 a b ws this
        rw [this]
        have := sum_eq_foldl id ws
        rw [List.map_id] at this
        exact congrArg some this

/-- **C62.** For every differentiation operator: `value_and_grad=True` wins over `grad`; its value parts are the plain
result, its gradient parts the result with `grad=True`; all calls fail alike. -/
theorem C62_transmitters {Key : Type} (G : GraphLib) (s : Scene) (rx : PyDict (V2 F))
    (hd : Distinct rx) (h1 : s.receivers = .fromMapping rx) (o : Scene.Orders) (cs : List (List ℤ))
    (hcs : s.allPathCandidates G o = .ok cs) (split : Key → ℕ → List Key) (key : Option Key)
    (m : Scene.PathMethod Key) (v : Scene.ValidOpts) (f : Scene.PathFun) (gradOp : (V2 F → F) → V2 F → V2 F)
    (X Y : Scene.Grid F) :
    let run := fun grad vag => s.accumulateOnTransmittersGrid G split m o v key gradOp grad vag f X Y
    (∃ e, ∀ grad vag, run grad vag = .error e) ∨
    ∃ rs : List (String × Scene.Grid F × Scene.Grid (V2 F)),
      (∀ grad, run grad true = .ok (rs.map fun r => (r.1, .both r.2.1 r.2.2))) ∧
      run true false = .ok (rs.map fun r => (r.1, .gradient r.2.2)) ∧
      run false false = .ok (rs.map fun r => (r.1, .value r.2.1)) := by
  intro run
  have hrun : ∀ grad vag, run grad vag = _ := fun grad vag => transmitters_eq G s rx hd h1 o cs hcs split key m v f gradOp grad vag X Y
  cases hrs : gridCore gradOp rx (fun r t => s.facc m v f t r 0 (cs.zip (Scene.gridKeys split key cs.length))) X Y with
  | error e => left; exact ⟨e, fun grad vag => by rw [hrun, hrs]; rfl⟩
  | ok rs =>
    right
    refine ⟨rs, fun grad => ?_, ?_, ?_⟩
    · rw [hrun, hrs]; rfl
    · rw [hrun, hrs]; rfl
    · rw [hrun, hrs]; rfl

/-- **C62.** The gradient at a grid point is that of the function which maps a position to the value of
`accumulate_over_paths` when the only transmitter is there. -/
theorem C62_transmitters_gradient {Key : Type} (G : GraphLib) (hG : GraphContract G) (s : Scene) (rx : PyDict (V2 F))
    (hd : Distinct rx) (h1 : s.receivers = .fromMapping rx) (o : Scene.Orders) (ho : NonNegative o)
    (cs : List (List ℤ)) (hcs : s.allPathCandidates G o = .ok cs) (hne : cs ≠ []) (split : Key → ℕ → List Key)
    (hsp : SplitCount split) (key : Option Key) (m : Scene.PathMethod Key) (hm : KeyIndependent m)
    (v : Scene.ValidOpts) (f : Scene.PathFun) (gradOp : (V2 F → F) → V2 F → V2 F) (X Y : Scene.Grid F)
    (out : List (String × Scene.GridOut))
    (h : s.accumulateOnTransmittersGrid G split m o v key gradOp true false f X Y = .ok out)
    (i : ℕ) (name : String) (p : V2 F) (hi : rx[i]? = some (name, p)) :
    ∃ dz φ, out[i]? = some (name, .gradient dz) ∧ gridShape dz = gridShape X ∧
      (∀ q s' key' es, s.withTransmitters [("tx", q)] = .ok s' → s'.accumulateOverPaths G split m o v key' f = .ok es →
        (es[i]?.map fun e => e.2.2) = some (φ q)) ∧
      ∀ a b x y, gridAt X a b = some x → gridAt Y a b = some y → gridAt dz a b = some (gradOp φ ⟨x, y⟩) := by
  rw [transmitters_eq G s rx hd h1 o cs hcs] at h
  cases hrs : gridCore gradOp rx (fun r t => s.facc m v f t r 0 (cs.zip (Scene.gridKeys split key cs.length))) X Y with
  | error e => rw [hrs] at h; cases h
  | ok rs =>
    rw [hrs] at h
    cases h
    obtain ⟨hsh, hf⟩ := gridCore_ok hrs
    obtain ⟨r, hr, e1, e2, e3, e4⟩ := forall₂_get hf hi
    refine ⟨r.2.2, orNan fun q => s.facc m v f q p 0 (cs.zip (Scene.gridKeys split key cs.length)), ?_, e3, ?_, ?_⟩
    · rw [List.getElem?_map, hr]
      simp only [Option.map_some, e1]
      rfl
    · intro q s' key' es hs' hes
      have hw : s.withTransmitters [("tx", q)] = .ok { s with transmitters := .fromMapping [("tx", q)] } := by
        unfold Scene.withTransmitters Scene.bindKwargs
        rw [if_neg (by simp)]; rfl
      rw [hw] at hs'
      cases hs'
      have hlen := gridKeys_length split hsp key cs.length
      have hd' : Distinct [("tx", q)] := by simp [Distinct]
      rw [accumulate_iff { s with transmitters := .fromMapping [("tx", q)] } m v G hG _ _ hd' hd rfl h1 o ho cs hcs hne split key' hm f _ hlen, single_product,
        List.forall₂_map_left_iff] at hes
      obtain ⟨e, he, _, _, hfe⟩ := forall₂_get hes hi
      rw [he]
      simp only [Option.map_some, Option.some.injEq]
      have : s.facc m v f q p 0 (cs.zip (Scene.gridKeys split key cs.length)) = .ok e.2.2 := by
        rw [← hfe]; exact facc_congr (by rfl) m v f _ _ _ _
      simp only [orNan, this]
    · intro a b x y hx hy
      exact (e4 a b x y hx hy).2

/-- **C62.** With `reduce_all`, `value_and_grad` sums both parts: the values as without gradients, and the gradients
as with `grad=True`, pointwise in order. -/
theorem C62_transmitters_reduce {Key : Type} (G : GraphLib) (s : Scene) (rx : PyDict (V2 F))
    (hd : Distinct rx) (h1 : s.receivers = .fromMapping rx) (o : Scene.Orders) (cs : List (List ℤ))
    (hcs : s.allPathCandidates G o = .ok cs) (split : Key → ℕ → List Key) (key : Option Key)
    (m : Scene.PathMethod Key) (v : Scene.ValidOpts) (f : Scene.PathFun) (gradOp : (V2 F → F) → V2 F → V2 F)
    (X Y : Scene.Grid F) (rs : List (String × Scene.Grid F × Scene.Grid (V2 F)))
    (h : s.accumulateOnTransmittersGrid G split m o v key gradOp false true f X Y =
      .ok (rs.map fun r => (r.1, .both r.2.1 r.2.2))) :
    ∃ Z dZ,
      (∀ grad, s.accumulateOnTransmittersGridAll G split m o v key gradOp grad true f X Y = .ok (Z, dZ)) ∧
      s.accumulateOnTransmittersGridAll G split m o v key gradOp false false f X Y = .ok (Z, none) ∧
      s.accumulateOnTransmittersGridAll G split m o v key gradOp true false f X Y = .ok (none, dZ) ∧
      (rs = [] → Z = none ∧ dZ = none) ∧
      (rs ≠ [] → ∃ z dz, Z = some z ∧ dZ = some dz ∧ gridShape z = gridShape X ∧ gridShape dz = gridShape X ∧
        ∀ a b, (∀ ws : List F, rs.map (fun r => gridAt r.2.1 a b) = ws.map some → gridAt z a b = some (F.sum ws)) ∧
          (∀ ws : List (V2 F), rs.map (fun r => gridAt r.2.2 a b) = ws.map some →
            gridAt dz a b = some (ws.foldl (· + ·) ⟨0, 0⟩))) := by
  unfold Scene.accumulateOnTransmittersGridAll
  simp only [transmitters_eq G s rx hd h1 o cs hcs] at h ⊢
  cases hrs : gridCore gradOp rx (fun r t => s.facc m v f t r 0 (cs.zip (Scene.gridKeys split key cs.length))) X Y with
  | error e => rw [hrs] at h; cases h
  | ok rs' =>
    rw [hrs] at h
    obtain ⟨hsh, hf⟩ := gridCore_ok hrs
    have hrr : rs' = rs := by
      injection h with h
      refine List.map_injective_iff.mpr ?_ h
      rintro ⟨a, b, c⟩ ⟨a', b', c'⟩ e
      simp only [gridSel, if_true, Prod.mk.injEq, Scene.GridOut.both.injEq] at e
      obtain ⟨rfl, rfl, rfl⟩ := e
      rfl
    subst hrr
    refine ⟨sumGrids (· + ·) 0 (rs'.map fun r => r.2.1), sumGrids (· + ·) ⟨0, 0⟩ (rs'.map fun r => r.2.2),
      fun grad => ?_, ?_, ?_, ?_, ?_⟩
    · show Except.ok (Scene.reduceGrids _) = _
      rw [reduceGrids_eq]; simp
    · show Except.ok (Scene.reduceGrids _) = _
      rw [reduceGrids_eq]; simp
    · show Except.ok (Scene.reduceGrids _) = _
      rw [reduceGrids_eq]; simp
    · rintro rfl; exact ⟨rfl, rfl⟩
    · intro hne
      have hz1 : ∀ z ∈ rs'.map (fun r => r.2.1), gridShape z = gridShape X := by
        intro z hz
        obtain ⟨r, hr, rfl⟩ := List.mem_map.mp hz
        obtain ⟨p, _, hp⟩ := forall₂_mem hf hr
        exact hp.2.1
      have hz2 : ∀ z ∈ rs'.map (fun r => r.2.2), gridShape z = gridShape X := by
        intro z hz
        obtain ⟨r, hr, rfl⟩ := List.mem_map.mp hz
        obtain ⟨p, _, hp⟩ := forall₂_mem hf hr
        exact hp.2.2.1
      obtain ⟨Z, b1, b2, b3⟩ := (sumGrids_spec (· + ·) (0 : F) _ _ hz1).2 (by simpa using hne)
      obtain ⟨dZ, c1, c2, c3⟩ := (sumGrids_spec (· + ·) (⟨0, 0⟩ : V2 F) _ _ hz2).2 (by simpa using hne)
      refine ⟨Z, dZ, b1, c1, b2, c2, fun a b => ⟨fun ws hws => ?_, fun ws hws => ?_⟩⟩
      · have h3 : List.Forall₂ (fun z w => gridAt z a b = some w) (rs'.map fun r => r.2.1) ws := by
          rw [← List.forall₂_eq_eq_eq, List.forall₂_map_left_iff, List.forall₂_map_right_iff] at hws
          rw [List.forall₂_map_left_iff]
          exact hws
        rw [b3 a b ws h3]
        have := sum_eq_foldl id ws
        rw [List.map_id] at this
        exact congrArg some this
      · apply c3 a b ws
        rw [← List.forall₂_eq_eq_eq, List.forall₂_map_left_iff, List.forall₂_map_right_iff] at hws
        rw [List.forall₂_map_left_iff]
        exact hws

/-- **C47.** There is a sequence of pairwise distinct keys derived from the user's key such that, in every grid
accumulation, the entry at a grid point is the sum over the candidates of the validity times the
value for the path traced with the key of that candidate. -/
theorem C47_transmitters_grid : ∃ ks : ℕ → KeyTerm, Function.Injective ks ∧ (∀ n, ks n ≠ .user) ∧
    ∀ (G : GraphLib), GraphContract G → ∀ (s : Scene) (rx : PyDict (V2 F)), Distinct rx →
      s.receivers = .fromMapping rx → ∀ (o : Scene.Orders), NonNegative o →
      ∀ (cs : List (List ℤ)), s.allPathCandidates G o = .ok cs →
      ∀ (m : Scene.PathMethod KeyTerm) (v : Scene.ValidOpts) (f : Scene.PathFun) (gradOp : (V2 F → F) → V2 F → V2 F)
        (X Y : Scene.Grid F) (out : List (String × Scene.GridOut)),
        s.accumulateOnTransmittersGrid G KeyTerm.split m o v (some .user) gradOp false false f X Y = .ok out →
        ∀ (i : ℕ) (name : String) (p : V2 F) (a b : ℕ) (x y : F), rx[i]? = some (name, p) →
          gridAt X a b = some x → gridAt Y a b = some y →
          ∃ z w, ∃ ps : List (Path × Truthy), out[i]? = some (name, .value z) ∧ gridAt z a b = some w ∧ ps.length = cs.length ∧
            (∀ j c q, cs[j]? = some c → ps[j]? = some q → TracedAs s m v (some (ks j)) ⟨x, y⟩ p c q.1 q.2) ∧
            w = F.sum ((cs.zip ps).map fun cq => cq.2.2.toF * f ⟨x, y⟩ p cq.2.1 (objectsAt s cq.1)) := by
  refine ⟨fun n => .child .user n, fun a b h => by injection h, fun n => by simp, ?_⟩
  intro G hG s rx hd h1 o ho cs hcs m v f gradOp X Y out h i name p a b x y hi hx hy
  obtain ⟨cs', hcs', hc⟩ := orders_candidates G hG s o ho
  rw [hcs] at hcs'; cases hcs'
  rw [transmitters_eq G s rx hd h1 o cs hcs] at h
  cases hrs : gridCore gradOp rx
      (fun r t => s.facc m v f t r 0 (cs.zip (Scene.gridKeys KeyTerm.split (some .user) cs.length))) X Y with
  | error e => rw [hrs] at h; cases h
  | ok rs =>
    rw [hrs] at h
    cases h
    obtain ⟨hsh, hf⟩ := gridCore_ok hrs
    obtain ⟨r, hr, e1, e2, e3, e4⟩ := forall₂_get hf hi
    obtain ⟨w, hw1, hw2⟩ := (e4 a b x y hx hy).1
    have hks : Scene.gridKeys KeyTerm.split (some .user) cs.length =
        (List.range cs.length).map fun n => some (KeyTerm.child .user n) := by
      simp [Scene.gridKeys, KeyTerm.split, Function.comp_def]
    rw [hks, facc_ok] at hw2
    obtain ⟨ys, hys, hsum⟩ := hw2
    have hyl : ys.length = cs.length := by
      have := hys.length_eq
      simpa using this.symm
    have hturn : ∀ j c q, cs[j]? = some c → ys[j]? = some q → q.1 = objectsAt s c ∧
        TracedAs s m v (some (.child .user j)) ⟨x, y⟩ p c q.2.1 q.2.2 := by
      intro j c q hj hq
      have hjl := (List.getElem?_eq_some_iff.mp hj).1
      have hz : (cs.zip ((List.range cs.length).map fun n => some (KeyTerm.child .user n)))[j]? =
          some (c, some (.child .user j)) := by
        rw [List.getElem?_zip_eq_some]
        refine ⟨hj, ?_⟩
        simp [hjl]
      obtain ⟨q', hq', a1, a2, a3⟩ := forall₂_get hys hz
      rw [hq] at hq'
      cases hq'
      rw [interacting_eq s c (hc c (List.mem_of_getElem? hj))] at a1
      injection a1 with a1
      rw [← a1] at a2 a3
      exact ⟨a1.symm, a2, a3⟩
    refine ⟨r.2.1, w, ys.map Prod.snd, ?_, hw1, by simp [hyl], ?_, ?_⟩
    · rw [List.getElem?_map, hr]
      simp only [Option.map_some, e1]
      rfl
    · intro j c q hj hq
      rw [List.getElem?_map] at hq
      cases hy' : ys[j]? with
      | none => rw [hy'] at hq; cases hq
      | some q' =>
        rw [hy'] at hq
        cases hq
        exact (hturn j c q' hj hy').2
    · rw [hsum, sum_eq_foldl (fun q : List Obj × Path × Truthy => q.2.2.toF * f ⟨x, y⟩ p q.2.1 q.1) ys]
      congr 1
      apply List.ext_getElem?
      intro j
      rw [List.getElem?_map, List.getElem?_map]
      cases hj : cs[j]? with
      | none =>
        have hge := List.getElem?_eq_none_iff.mp hj
        rw [List.getElem?_eq_none_iff.mpr (by omega), List.getElem?_eq_none_iff.mpr (by simp; omega)]
        rfl
      | some c =>
        have hjl := (List.getElem?_eq_some_iff.mp hj).1
        have hq := List.getElem?_eq_getElem (l := ys) (i := j) (by omega)
        have hz : (cs.zip (ys.map Prod.snd))[j]? = some (c, (ys[j]'(by omega)).2) := by
          rw [List.getElem?_zip_eq_some]
          exact ⟨hj, by rw [List.getElem?_map, hq]; rfl⟩
        rw [hq, hz]
        simp only [Option.map_some]
        rw [(hturn j c _ hj hq).1]

/-! ## Non-vacuity -/

/-- The default path class does not use its key; the number of keys is as requested. -/
example : KeyIndependent (imageMethod KeyTerm) ∧ KeyIndependent (plainMethod KeyTerm) ∧ SplitCount KeyTerm.split :=
  ⟨fun _ _ _ _ _ => rfl, fun _ _ _ _ _ => rfl, fun _ _ => by simp [KeyTerm.split]⟩

/-- In a scene made of walls, grids of one shape can always be accumulated with the default path class. -/
theorem blocked_receivers_grid (G : GraphLib) (hG : GraphContract G) (f : Scene.PathFun) (gradOp : (V2 F → F) → V2 F → V2 F) (grad vag : Bool)
    (X Y : Scene.Grid F) (h : gridShape X = gridShape Y) :
    ∃ out, blockedScene.accumulateOnReceiversGrid G KeyTerm.split (imageMethod KeyTerm) { minOrder := 0, maxOrder := 0 }
      hardOpts (some .user) gradOp grad vag f X Y = .ok out := by
  refine C60_receivers_total G hG blockedScene (finPoints [("tx", ⟨0, 0⟩)]) (by simp [Distinct, finPoints]) rfl _
    (by simp [NonNegative]) [[]] (candidates_zero G hG _) (by simp) _ (fun _ _ => by simp [KeyTerm.split]) _ _
    (fun _ _ _ _ _ => rfl) _ _ _ _ _ _ _ h ?_
  intro a b x y _ _
  refine ⟨{ blockedScene with receivers := .fromMapping [("rx", ⟨x, y⟩)] }, none, ?_⟩
  have hd' : Distinct [("rx", (⟨x, y⟩ : V2 F))] := by simp [Distinct]
  obtain ⟨ts, hts⟩ := C56_image_total G hG KeyTerm { blockedScene with receivers := .fromMapping [("rx", ⟨x, y⟩)] }
    ⟨⟨_, by simp [Distinct, finPoints], rfl⟩, ⟨_, hd', rfl⟩⟩ (by simp [blockedScene, sceneOf, Scene.make, Shape.obj])
    { minOrder := 0, maxOrder := 0 } (by simp [NonNegative]) KeyTerm.split none hardOpts
  rw [C58_entries G hG { blockedScene with receivers := .fromMapping [("rx", ⟨x, y⟩)] } (finPoints [("tx", ⟨0, 0⟩)])
    [("rx", ⟨x, y⟩)] (by simp [Distinct, finPoints]) hd' rfl rfl _ (by simp [NonNegative]) [[]] (candidates_zero G hG _) (by simp), hts]
  exact ⟨_, by unfold Scene.withReceivers Scene.bindKwargs; rw [if_neg (by simp)]; rfl, rfl⟩

/-- The same on transmitters grids. -/
theorem blocked_transmitters_grid (G : GraphLib) (hG : GraphContract G) (f : Scene.PathFun) (gradOp : (V2 F → F) → V2 F → V2 F) (grad vag : Bool)
    (X Y : Scene.Grid F) (h : gridShape X = gridShape Y) :
    ∃ out, blockedScene.accumulateOnTransmittersGrid G KeyTerm.split (imageMethod KeyTerm) { minOrder := 0, maxOrder := 0 }
      hardOpts (some .user) gradOp grad vag f X Y = .ok out := by
  refine C60_transmitters_total G hG blockedScene (finPoints [("rx", ⟨2, 0⟩)]) (by simp [Distinct, finPoints]) rfl _
    (by simp [NonNegative]) [[]] (candidates_zero G hG _) (by simp) _ (fun _ _ => by simp [KeyTerm.split]) _ _
    (fun _ _ _ _ _ => rfl) _ _ _ _ _ _ _ h ?_
  intro a b x y _ _
  refine ⟨{ blockedScene with transmitters := .fromMapping [("tx", ⟨x, y⟩)] }, none, ?_⟩
  have hd' : Distinct [("tx", (⟨x, y⟩ : V2 F))] := by simp [Distinct]
  obtain ⟨ts, hts⟩ := C56_image_total G hG KeyTerm { blockedScene with transmitters := .fromMapping [("tx", ⟨x, y⟩)] }
    ⟨⟨_, hd', rfl⟩, ⟨_, by simp [Distinct, finPoints], rfl⟩⟩ (by simp [blockedScene, sceneOf, Scene.make, Shape.obj])
    { minOrder := 0, maxOrder := 0 } (by simp [NonNegative]) KeyTerm.split none hardOpts
  rw [C58_entries G hG { blockedScene with transmitters := .fromMapping [("tx", ⟨x, y⟩)] } [("tx", ⟨x, y⟩)]
    (finPoints [("rx", ⟨2, 0⟩)]) hd' (by simp [Distinct, finPoints]) rfl rfl _ (by simp [NonNegative]) [[]] (candidates_zero G hG _) (by simp), hts]
  exact ⟨_, by unfold Scene.withTransmitters Scene.bindKwargs; rw [if_neg (by simp)]; rfl, rfl⟩

/-- There is no path of one bounce in a scene without objects. -/
theorem empty_candidates (G : GraphLib) (hG : GraphContract G) (s : Scene) (hs : s.objects = []) :
    s.allPathCandidates G { minOrder := 1, maxOrder := 1 } = .ok [] := by
  obtain ⟨cs, e, _, hm, _⟩ := C53_sound_complete G hG s 1 1 (by norm_num)
  rw [e]
  congr 1
  rw [List.eq_nil_iff_forall_not_mem]
  intro c hc
  obtain ⟨h1, h2, h3⟩ := (hm c).mp hc
  cases c with
  | nil => simp at h2
  | cons i c =>
    have := h1.1 i (by simp)
    simp [hs] at this
    omega

section Witness

variable (G : GraphLib) (hG : GraphContract G) (f : Scene.PathFun) (gradOp : (V2 F → F) → V2 F → V2 F)
  (X Y : Scene.Grid F) (h : gridShape X = gridShape Y)
include hG h

/-- Non-vacuity of the theorems on receivers grids: the blocked scene, with any grid. -/
example : True := by
  obtain ⟨out, e⟩ := blocked_receivers_grid G hG f gradOp false false X Y h
  obtain ⟨out', e'⟩ := blocked_receivers_grid G hG f gradOp true false X Y h
  have hd : Distinct (finPoints [("tx", ⟨0, 0⟩)]) := by simp [Distinct, finPoints]
  have hsp : SplitCount KeyTerm.split := fun _ _ => by simp [KeyTerm.split]
  obtain ⟨zs, rfl, hl, -⟩ := C60_receivers G hG blockedScene _ hd rfl _ (by simp [NonNegative]) [[]] (candidates_zero G hG _)
    (by simp) _ hsp _ _ (fun _ _ _ _ _ => rfl) _ _ _ _ _ _ e
  have := C60_receivers_reduce G blockedScene _ hd rfl _ [[]] (candidates_zero G hG _) _ _ _ _ _ _ _ _ zs hl e
  have := C62_receivers_gradient G hG blockedScene _ hd rfl _ (by simp [NonNegative]) [[]] (candidates_zero G hG _)
    (by simp) _ hsp _ _ (fun _ _ _ _ _ => rfl) _ _ _ _ _ _ e' 0 "tx" _ rfl
  rcases C62_receivers G blockedScene _ hd rfl _ [[]] (candidates_zero G hG _) KeyTerm.split (some .user)
    (imageMethod KeyTerm) hardOpts f gradOp X Y with ⟨er, he⟩ | ⟨rs, hrs, -⟩
  · exact absurd ((he false false).symm.trans e) (by simp)
  · have := C62_receivers_reduce G blockedScene _ hd rfl _ [[]] (candidates_zero G hG _) _ _ _ _ _ _ _ _ rs (hrs false)
    trivial

/-- Non-vacuity of the theorems on transmitters grids: the blocked scene, with any grid. -/
example : True := by
  obtain ⟨out, e⟩ := blocked_transmitters_grid G hG f gradOp false false X Y h
  obtain ⟨out', e'⟩ := blocked_transmitters_grid G hG f gradOp true false X Y h
  have hd : Distinct (finPoints [("rx", ⟨2, 0⟩)]) := by simp [Distinct, finPoints]
  have hsp : SplitCount KeyTerm.split := fun _ _ => by simp [KeyTerm.split]
  obtain ⟨zs, rfl, hl, -⟩ := C60_transmitters G hG blockedScene _ hd rfl _ (by simp [NonNegative]) [[]] (candidates_zero G hG _)
    (by simp) _ hsp _ _ (fun _ _ _ _ _ => rfl) _ _ _ _ _ _ e
  have := C60_transmitters_reduce G blockedScene _ hd rfl _ [[]] (candidates_zero G hG _) _ _ _ _ _ _ _ _ zs hl e
  have := C62_transmitters_gradient G hG blockedScene _ hd rfl _ (by simp [NonNegative]) [[]] (candidates_zero G hG _)
    (by simp) _ hsp _ _ (fun _ _ _ _ _ => rfl) _ _ _ _ _ _ e' 0 "rx" _ rfl
  rcases C62_transmitters G blockedScene _ hd rfl _ [[]] (candidates_zero G hG _) KeyTerm.split (some .user)
    (imageMethod KeyTerm) hardOpts f gradOp X Y with ⟨er, he⟩ | ⟨rs, hrs, -⟩
  · exact absurd ((he false false).symm.trans e) (by simp)
  · have := C62_transmitters_reduce G blockedScene _ hd rfl _ [[]] (candidates_zero G hG _) _ _ _ _ _ _ _ _ rs (hrs false)
    trivial

omit h in
/-- Non-vacuity of the theorems without candidates: one bounce in a scene without objects, on a grid of one point. -/
example : True := by
  have e1 := empty_candidates G hG (Scene.make [("tx", ⟨0, 0⟩)] [("rx", ⟨2, 0⟩)] []) rfl
  obtain ⟨out, e⟩ : ∃ out, (Scene.make [("tx", ⟨0, 0⟩)] [("rx", ⟨2, 0⟩)] []).accumulateOnReceiversGrid G KeyTerm.split
      (imageMethod KeyTerm) { minOrder := 1, maxOrder := 1 } hardOpts none gradOp false false f [[1]] [[1]] = .ok out := by
    rcases C62_receivers G (Scene.make [("tx", ⟨0, 0⟩)] [("rx", ⟨2, 0⟩)] []) _ (by simp [Distinct]) rfl _ [] e1 KeyTerm.split none
      (imageMethod KeyTerm) hardOpts f gradOp [[1]] [[1]] with ⟨er, he⟩ | ⟨rs, -, -, hrs⟩
    · have := he false false
      unfold Scene.accumulateOnReceiversGrid at this
      have hw : (Scene.make [("tx", ⟨0, 0⟩)] [("rx", ⟨2, 0⟩)] []).withReceivers [("rx", ⟨0, 0⟩)] =
          .ok (Scene.make [("tx", ⟨0, 0⟩)] [("rx", ⟨0, 0⟩)] []) := by
        unfold Scene.withReceivers Scene.bindKwargs; rw [if_neg (by simp)]; rfl
      rw [hw] at this
      have hc := empty_candidates G hG (Scene.make [("tx", ⟨0, 0⟩)] [("rx", ⟨0, 0⟩)] []) rfl
      simp only [bind, Except.bind, hc] at this
      exact absurd this (by
        rw [show (Scene.make [("tx", ⟨0, 0⟩)] [("rx", ⟨0, 0⟩)] []).allTransmitterReceiverPairs =
          .ok [(("tx", ⟨0, 0⟩), ("rx", ⟨0, 0⟩))] from rfl]
        rw [show Scene.dstack ([[1]] : Scene.Grid F) [[1]] = .ok [[⟨1, 1⟩]] from rfl]
        simp [List.mapM_cons, Scene.mapGrid, Scene.facc, bind, Except.bind, pure, Except.pure])
    · exact ⟨_, hrs⟩
  have := C60_receivers_no_candidates G (Scene.make [("tx", ⟨0, 0⟩)] [("rx", ⟨2, 0⟩)] []) _ (by simp [Distinct]) rfl _ e1 _ _ _ _ _ _ _ _ _ e
  obtain ⟨out, e⟩ : ∃ out, (Scene.make [("tx", ⟨0, 0⟩)] [("rx", ⟨2, 0⟩)] []).accumulateOnTransmittersGrid G KeyTerm.split
      (imageMethod KeyTerm) { minOrder := 1, maxOrder := 1 } hardOpts none gradOp false false f [[1]] [[1]] = .ok out := by
    rcases C62_transmitters G (Scene.make [("tx", ⟨0, 0⟩)] [("rx", ⟨2, 0⟩)] []) _ (by simp [Distinct]) rfl _ [] e1 KeyTerm.split none
      (imageMethod KeyTerm) hardOpts f gradOp [[1]] [[1]] with ⟨er, he⟩ | ⟨rs, -, -, hrs⟩
    · have := he false false
      unfold Scene.accumulateOnTransmittersGrid at this
      have hw : (Scene.make [("tx", ⟨0, 0⟩)] [("rx", ⟨2, 0⟩)] []).withTransmitters [("tx", ⟨0, 0⟩)] =
          .ok (Scene.make [("tx", ⟨0, 0⟩)] [("rx", ⟨2, 0⟩)] []) := by
        unfold Scene.withTransmitters Scene.bindKwargs; rw [if_neg (by simp)]; rfl
      rw [hw] at this
      have hc := empty_candidates G hG (Scene.make [("tx", ⟨0, 0⟩)] [("rx", ⟨2, 0⟩)] []) rfl
      simp only [bind, Except.bind, hc] at this
      exact absurd this (by
        rw [show (Scene.make [("tx", ⟨0, 0⟩)] [("rx", ⟨2, 0⟩)] []).allTransmitterReceiverPairs =
          .ok [(("tx", ⟨0, 0⟩), ("rx", ⟨2, 0⟩))] from rfl]
        rw [show Scene.dstack ([[1]] : Scene.Grid F) [[1]] = .ok [[⟨1, 1⟩]] from rfl]
        simp [List.mapM_cons, Scene.mapGrid, Scene.facc, bind, Except.bind, pure, Except.pure])
    · exact ⟨_, hrs⟩
  have := C60_transmitters_no_candidates G (Scene.make [("tx", ⟨0, 0⟩)] [("rx", ⟨2, 0⟩)] []) _ (by simp [Distinct]) rfl _ e1 _ _ _ _ _ _ _ _ _ e
  trivial

end Witness

end DiffeRT2d.Props
