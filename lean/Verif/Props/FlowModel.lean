import Verif.Lemmas.Sampler
import Verif.Props.Samples

/-! # C133: the flow model of the notebook -/

namespace DiffeRT2d.Props
open DiffeRT2d Spec Classical

theorem atSet_getElem (l : List F) (w : ℤ) (v : F) (i : ℕ) (hi : i < l.length) :
    (atSet l w v)[i]? = some (if w = i ∨ w = (i : ℤ) - l.length then v else l[i]) := by
  simp only [atSet]
  by_cases hw : w < 0
  · simp only [hw, if_true]
    by_cases h2 : w + l.length < 0
    · rw [if_pos h2, List.getElem?_eq_getElem hi, if_neg (by omega)]
    · rw [if_neg h2, List.getElem?_set]
      by_cases h3 : (w + l.length).toNat = i
      · rw [if_pos h3, if_pos (by omega), if_pos (by omega)]
      · rw [if_neg h3, List.getElem?_eq_getElem hi, if_neg (by omega)]
  · simp only [hw, if_false]
    rw [List.getElem?_set]
    by_cases h3 : w.toNat = i
    · rw [if_pos h3, if_pos (by omega), if_pos (by omega)]
    · rw [if_neg h3, List.getElem?_eq_getElem hi, if_neg (by omega)]

theorem atSet_length (l : List F) (w : ℤ) (v : F) : (atSet l w v).length = l.length := by
  simp only [atSet]; split_ifs <;> simp

/-- **C133.** The flows. For a scene with finite points and at least one wall, any state and network without overflow: there is one positive flow per
wall, and the call returns these flows, except that of the last wall selected, which is 0. An index out of bounds (such as the number of walls, which is
what the notebook passes at first) stops no flow. -/
theorem C133_flow (net : FlowModel) (hnet : FiniteNet net) (state : OneHot) (hn : 0 < state.length) (ps : List Pt) (hl : ps.length = 2 + state.length * 2) :
    ∃ f : ℕ → ℝ, (∀ i, 0 < f i) ∧ ∀ w : ℤ, ∃ out, net.call state w (ps.map V2.fin) = .ok out ∧ out.length = state.length ∧
      ∀ i < state.length, out[i]? = some (F.fin (if w = i ∨ w = (i : ℤ) - state.length then 0 else f i)) := by
  obtain ⟨f, hf, hpos⟩ := flows_pos net hnet (state.nonzeroRows (state.headD []).length state.length) ps (by intro h; simp [h] at hl; omega)
  have hlen : (net.flows (state.nonzeroRows (state.headD []).length state.length) (ps.map V2.fin)).length = state.length :=
    flows_length _ _ _ _ (by simpa using hl)
  have hfl : f.length = state.length := by rw [hf] at hlen; simpa using hlen
  refine ⟨fun i => if h : i < f.length then f[i] else 1, fun i => ?_, fun w => ⟨_, call_eq net state w _ (by simpa using hl) hn, ?_, fun i hi => ?_⟩⟩
  · dsimp only
    split_ifs with h
    · exact hpos _ (List.getElem_mem h)
    · exact one_pos
  · rw [atSet_length, hlen]
  · have hi' : i < f.length := by rw [hfl]; exact hi
    rw [hf, atSet_getElem _ _ _ _ (by simpa using hi')]
    simp only [List.length_map, hfl, List.getElem_map, hi', dif_pos]
    split_ifs <;> simp

/-- A network without overflow. -/
noncomputable def plainNet : FlowModel where
  size := 1
  embed x := [F.sum x]
  raw x := F.sum x

theorem plainNet_finite : FiniteNet plainNet where
  embed x hx := by
    obtain ⟨r, rfl⟩ := allFin_map hx
    exact ⟨rfl, by simp only [plainNet, F.sum_fin, List.mem_singleton]; rintro v rfl; exact ⟨_, rfl⟩⟩
  raw x hx := by
    obtain ⟨r, rfl⟩ := allFin_map hx
    exact ⟨_, F.sum_fin r⟩

/-- Non-vacuity: one wall, nothing chosen. -/
example := C133_flow plainNet plainNet_finite (OneHot.zeros 2 2) (by simp [OneHot.zeros]) [⟨0, 0⟩, ⟨1, 1⟩, ⟨2, 0⟩, ⟨3, 0⟩, ⟨4, 0⟩, ⟨4, 7⟩] (by simp [OneHot.zeros])

/-- **C133, the documentation of `wall_index`, refuted**: "a negative index indicates that no wall was previously selected", but −1 stops the flow of the
last wall, for every scene and state; only an index out of bounds means that no wall was selected. -/
theorem C133_negative_refuted (net : FlowModel) (hnet : FiniteNet net) (state : OneHot) (hn : 0 < state.length) (ps : List Pt)
    (hl : ps.length = 2 + state.length * 2) :
    net.call state (-1) (ps.map V2.fin) = net.call state (state.length - 1 : ℤ) (ps.map V2.fin) ∧
      net.call state (-1) (ps.map V2.fin) ≠ net.call state state.length (ps.map V2.fin) := by
  obtain ⟨f, hpos, h⟩ := C133_flow net hnet state hn ps hl
  obtain ⟨o1, e1, l1, h1⟩ := h (-1)
  obtain ⟨o2, e2, l2, h2⟩ := h (state.length - 1 : ℤ)
  obtain ⟨o3, e3, l3, h3⟩ := h state.length
  rw [e1, e2, e3]
  refine ⟨congrArg _ (List.ext_getElem? fun i => ?_), fun he => ?_⟩
  · by_cases hi : i < state.length
    · rw [h1 i hi, h2 i hi]
      congr 2
      refine if_congr ?_ rfl rfl
      omega
    · rw [List.getElem?_eq_none (by omega), List.getElem?_eq_none (by omega)]
  · have := (h1 (state.length - 1) (by omega)).symm.trans ((congrArg (·[state.length - 1]?) (Except.ok.inj he)).trans (h3 (state.length - 1) (by omega)))
    rw [if_pos (by omega), if_neg (by omega)] at this
    exact (hpos _).ne (F.fin.inj (Option.some.inj this))

/-! ## Deep sets -/

/-- The array of a scene whose walls are given by their indices; coordinates may be NaN or infinite. -/
def sceneRows {n : ℕ} (tx rx : V2 F) (walls : Fin n → V2 F × V2 F) : List (V2 F) :=
  tx :: rx :: (List.ofFn walls).flatMap fun w => [w.1, w.2]

theorem sceneRows_length {n : ℕ} (tx rx : V2 F) (walls : Fin n → V2 F × V2 F) : (sceneRows tx rx walls).length = 2 + n * 2 := by
  have h : ∀ l : List (V2 F × V2 F), (l.flatMap fun w => [w.1, w.2]).length = l.length * 2 := by
    intro l
    induction l with
    | nil => rfl
    | cons w l ih => simp only [List.flatMap_cons, List.length_append, ih, List.length_cons, List.length_nil]; omega
  simp only [sceneRows, List.length_cons, h, List.length_ofFn]; omega

/-- Normalization of one point. -/
noncomputable def normOne (xys : List (V2 F)) (p : V2 F) : V2 F :=
  ⟨(p.x - meanOf (xys.map V2.x)) / (stdOf (xys.map V2.x) + 1e-5), (p.y - meanOf (xys.map V2.y)) / (stdOf (xys.map V2.y) + 1e-5)⟩

theorem normalizeRows_eq (xys : List (V2 F)) : normalizeRows xys = xys.map (normOne xys) := rfl

theorem meanOf_perm {l l' : List F} (h : l.Perm l') : meanOf l = meanOf l' := by
  rw [meanOf, meanOf, F.sum_perm h, h.length_eq]

theorem stdOf_perm {l l' : List F} (h : l.Perm l') : stdOf l = stdOf l' := by
  rw [stdOf, stdOf, meanOf_perm h, meanOf_perm (h.map _)]

theorem normOne_perm {l l' : List (V2 F)} (h : l.Perm l') : normOne l = normOne l' := by
  funext p
  simp only [normOne, meanOf_perm (h.map _), stdOf_perm (h.map _)]

/-- The four numbers of a wall. -/
noncomputable def wall4 (xys : List (V2 F)) (w : V2 F × V2 F) : List F :=
  [(normOne xys w.1).x, (normOne xys w.1).y, (normOne xys w.2).x, (normOne xys w.2).y]

theorem rows4_walls (xys : List (V2 F)) (l : List (V2 F × V2 F)) :
    rows4 ((l.flatMap fun w => [w.1, w.2]).map (normOne xys)) = l.map (wall4 xys) := by
  induction l with
  | nil => rfl
  | cons w l ih => simp only [List.flatMap_cons, List.cons_append, List.nil_append, List.map_cons, rows4, ih]; rfl

theorem flows_scene {n : ℕ} (net : FlowModel) (rows : List ℤ) (tx rx : V2 F) (walls : Fin n → V2 F × V2 F) :
    net.flows rows (sceneRows tx rx walls) =
      let xys := sceneRows tx rx walls
      let embeddings := (List.ofFn walls).map fun w => net.embed (wall4 xys w)
      (List.ofFn walls).map fun w => F.exp (net.raw (wall4 xys (tx, rx) ++
        sumRows net.size (rows.map (takeFill embeddings (List.replicate net.size 0))) ++ sumRows net.size embeddings ++ wall4 xys w)) := by
  have h : normalizeRows (sceneRows tx rx walls) = normOne (sceneRows tx rx walls) tx :: normOne (sceneRows tx rx walls) rx ::
      ((List.ofFn walls).flatMap fun w => [w.1, w.2]).map (normOne (sceneRows tx rx walls)) := rfl
  simp only [FlowModel.flows, h, List.take_succ_cons, List.take_zero, List.drop_succ_cons, List.drop_zero, rows4, List.headD_cons, rows4_walls, List.map_map]
  rfl

theorem flatMap_perm_ofFn {n : ℕ} (σ : Equiv.Perm (Fin n)) (walls : Fin n → V2 F × V2 F) : (List.ofFn (walls ∘ σ)).Perm (List.ofFn walls) :=
  Equiv.Perm.ofFn_comp_perm σ walls

theorem sceneRows_perm {n : ℕ} (σ : Equiv.Perm (Fin n)) (tx rx : V2 F) (walls : Fin n → V2 F × V2 F) :
    (sceneRows tx rx (walls ∘ σ)).Perm (sceneRows tx rx walls) :=
  ((flatMap_perm_ofFn σ walls).flatMap_right _).cons _ |>.cons _

theorem takeFill_ofFn {α : Type*} {n : ℕ} (f : Fin n → α) (fill : α) (i : Fin n) : takeFill (List.ofFn f) fill (i : ℕ) = f i := by
  have hi := i.isLt
  simp only [takeFill, List.getD_eq_getElem?_getD]
  rw [if_neg (by omega), if_neg (by omega), Int.toNat_natCast, List.getElem?_eq_getElem (by simp)]
  simp

theorem takeFill_out {α : Type*} {n : ℕ} (f : Fin n → α) (fill : α) : takeFill (List.ofFn f) fill (n : ℕ) = fill := by
  simp only [takeFill, List.getD_eq_getElem?_getD]
  rw [if_neg (by omega), if_neg (by omega), Int.toNat_natCast, List.getElem?_eq_none (by simp)]
  rfl

/-- The embeddings of the state, from the walls chosen. -/
theorem stateEmbeddings_eq {n : ℕ} (size order : ℕ) (emb : Fin n → List F) (c : List (Fin n)) (hc : c.length ≤ order) :
    sumRows size (((encode n order (c.map Fin.val)).nonzeroRows order n).map (takeFill (List.ofFn emb) (List.replicate size 0))) =
      sumRows size (c.map emb ++ List.replicate (order - c.length) (List.replicate size 0)) := by
  rw [nonzeroRows_encode n order _ (by simp) (by simpa using hc)]
  rw [List.map_append, List.map_replicate, takeFill_out, List.length_map, List.map_map]
  refine sumRows_perm _ (List.Perm.append_right _ ?_)
  refine (List.Perm.map _ (visited_perm n (c.map Fin.val) (by simp))).trans ?_
  rw [List.map_map]
  exact List.Perm.of_eq (List.map_congr_left fun i _ => takeFill_ofFn emb _ i)

/-- The flows of a scene and a candidate under construction. -/
theorem flows_encode {n : ℕ} (net : FlowModel) (order : ℕ) (c : List (Fin n)) (hc : c.length ≤ order) (tx rx : V2 F) (walls : Fin n → V2 F × V2 F) :
    net.flows ((encode n order (c.map Fin.val)).nonzeroRows order n) (sceneRows tx rx walls) =
      let xys := sceneRows tx rx walls
      List.ofFn fun i => F.exp (net.raw (wall4 xys (tx, rx) ++
        sumRows net.size (c.map (fun j => net.embed (wall4 xys (walls j))) ++ List.replicate (order - c.length) (List.replicate net.size 0)) ++
        sumRows net.size (List.ofFn fun j => net.embed (wall4 xys (walls j))) ++ wall4 xys (walls i))) := by
  rw [flows_scene]
  have e : (List.ofFn walls).map (fun w => net.embed (wall4 (sceneRows tx rx walls) w)) = List.ofFn fun j => net.embed (wall4 (sceneRows tx rx walls) (walls j)) := by
    rw [List.map_ofFn]; rfl
  simp only [e, stateEmbeddings_eq net.size order _ c hc]
  rw [List.map_ofFn]
  rfl

theorem call_encode {n : ℕ} (hn : 0 < n) (net : FlowModel) (order : ℕ) (c : List ℕ) (w : ℤ) (tx rx : V2 F) (walls : Fin n → V2 F × V2 F) :
    net.call (encode n order c) w (sceneRows tx rx walls) =
      .ok (atSet (net.flows ((encode n order c).nonzeroRows order n) (sceneRows tx rx walls)) w 0) := by
  rw [call_eq net _ w _ (by rw [sceneRows_length, encode_length]) (by rw [encode_length]; exact hn), encode_length, encode_order n order hn]

theorem atSet_ofFn {n : ℕ} (f : Fin n → F) (w : Fin n) (v : F) : atSet (List.ofFn f) (w : ℕ) v = List.ofFn (Function.update f w v) := by
  apply List.ext_getElem?
  intro i
  by_cases hi : i < n
  · rw [atSet_getElem _ _ _ _ (by simpa using hi)]
    simp only [List.length_ofFn, List.getElem_ofFn]
    rw [List.getElem?_eq_getElem (by simpa using hi), List.getElem_ofFn, Function.update_apply]
    congr 1
    refine if_congr ?_ rfl rfl
    rw [Fin.ext_iff]
    have := w.isLt
    simp only
    omega
  · rw [List.getElem?_eq_none (by rw [atSet_length]; simpa using hi), List.getElem?_eq_none (by simpa using hi)]

theorem atSet_out {n : ℕ} (f : Fin n → F) (v : F) : atSet (List.ofFn f) (n : ℕ) v = List.ofFn f := by
  simp only [atSet]
  rw [if_neg (by omega), if_neg (by omega), Int.toNat_natCast, List.set_eq_of_length_le (by simp)]

/-- The index passed for the last wall selected: the number of walls if there is none. -/
def lastIndex {n : ℕ} (last : Option (Fin n)) : ℤ := ((last.map Fin.val).getD n : ℕ)

/-- **C133.** The order in which the walls of the scene are listed does not matter: if the walls are listed in another order (the `i`-th is now what was
the `σ i`-th), and the walls chosen so far and the last one are renamed accordingly, the flow to each wall is unchanged. For every network,
candidate under construction and coordinates (NaN and infinities included). -/
theorem C133_equivariant {n : ℕ} (hn : 0 < n) (net : FlowModel) (order : ℕ) (c : List (Fin n)) (hc : c.length ≤ order) (last : Option (Fin n))
    (tx rx : V2 F) (walls : Fin n → V2 F × V2 F) (σ : Equiv.Perm (Fin n)) :
    ∃ flow : Fin n → F,
      net.call (encode n order (c.map Fin.val)) (lastIndex last) (sceneRows tx rx walls) = .ok (List.ofFn flow) ∧
      net.call (encode n order ((c.map σ.symm).map Fin.val)) (lastIndex (last.map σ.symm)) (sceneRows tx rx (walls ∘ σ)) = .ok (List.ofFn (flow ∘ σ)) := by
  have hw4 : ∀ w, wall4 (sceneRows tx rx (walls ∘ σ)) w = wall4 (sceneRows tx rx walls) w := fun w => by
    simp only [wall4, normOne_perm (sceneRows_perm σ tx rx walls)]
  have hf : net.flows ((encode n order ((c.map σ.symm).map Fin.val)).nonzeroRows order n) (sceneRows tx rx (walls ∘ σ)) =
      List.ofFn ((fun i => F.exp (net.raw (wall4 (sceneRows tx rx walls) (tx, rx) ++
        sumRows net.size (c.map (fun j => net.embed (wall4 (sceneRows tx rx walls) (walls j))) ++ List.replicate (order - c.length) (List.replicate net.size 0)) ++
        sumRows net.size (List.ofFn fun j => net.embed (wall4 (sceneRows tx rx walls) (walls j))) ++ wall4 (sceneRows tx rx walls) (walls i)))) ∘ σ) := by
    have hs : sumRows net.size (List.ofFn fun j => net.embed (wall4 (sceneRows tx rx walls) (walls (σ j)))) =
        sumRows net.size (List.ofFn fun j => net.embed (wall4 (sceneRows tx rx walls) (walls j))) :=
      sumRows_perm _ (Equiv.Perm.ofFn_comp_perm σ fun j => net.embed (wall4 (sceneRows tx rx walls) (walls j)))
    rw [flows_encode net order _ (by simpa using hc)]
    simp only [hw4]
    simp only [List.map_map, List.length_map, Function.comp_def, Equiv.apply_symm_apply, hs]
  rw [call_encode hn, call_encode hn, hf, flows_encode net order c hc]
  cases last with
  | none =>
    simp only [lastIndex, Option.map_none, Option.getD_none, atSet_out]
    exact ⟨_, rfl, rfl⟩
  | some w =>
    simp only [lastIndex, Option.map_some, Option.getD_some, atSet_ofFn]
    refine ⟨_, rfl, ?_⟩
    congr 2
    funext i
    simp only [Function.comp, Function.update_apply, Equiv.eq_symm_apply]

/-- Non-vacuity: three walls, two of which are exchanged; the second has been chosen. -/
example := C133_equivariant (n := 3) (by norm_num) plainNet 2 [1] (by simp) (some 1) (V2.fin ⟨0, 0⟩) V2.nan
  ![(V2.fin ⟨0, 1⟩, V2.fin ⟨0, 2⟩), (V2.fin ⟨1, 1⟩, V2.fin ⟨0, 5⟩), (V2.fin ⟨4, 1⟩, V2.fin ⟨0, 9⟩)] (Equiv.swap 0 1)

/-- **C133.** The network cannot tell in which order the walls were chosen: two candidates under construction with the same walls (as many times each)
give the same flows for the same last wall. -/
theorem C133_blind {n : ℕ} (hn : 0 < n) (net : FlowModel) (order : ℕ) (c c' : List (Fin n)) (hc : c.length ≤ order) (hp : c.Perm c') (w : ℤ)
    (tx rx : V2 F) (walls : Fin n → V2 F × V2 F) :
    net.call (encode n order (c.map Fin.val)) w (sceneRows tx rx walls) = net.call (encode n order (c'.map Fin.val)) w (sceneRows tx rx walls) := by
  rw [call_encode hn, call_encode hn, flows_encode net order c hc, flows_encode net order c' (hp.length_eq ▸ hc)]
  simp only [sumRows_perm net.size ((hp.map _).append_right _), hp.length_eq]

/-- Non-vacuity: the wall 0 then the wall 1, and conversely. -/
example := C133_blind (n := 2) (by norm_num) plainNet 3 [0, 1] [1, 0] (by simp) (List.Perm.swap _ _ _) 1 (V2.fin ⟨0, 0⟩) (V2.fin ⟨3, 0⟩)
  ![(V2.fin ⟨0, 1⟩, V2.fin ⟨0, 2⟩), (V2.fin ⟨1, 1⟩, V2.fin ⟨0, 5⟩)]

theorem normed_shift (l : List ℝ) (h : l ≠ []) (a x : ℝ) : normed (l.map (· + a)) (x + a) = normed l x := by
  have hl : (l.length : ℝ) ≠ 0 := by simpa using h
  have hs : (l.map (· + a)).sum = l.sum + l.length * a := by
    induction l with
    | nil => simp
    | cons y l ih =>
      by_cases hl' : l = []
      · simp [hl']
      · simp only [List.map_cons, List.sum_cons, ih hl' (by simpa using hl'), List.length_cons]; push_cast; ring
  have hm : (l.map (· + a)).sum / (l.length : ℝ) = l.sum / l.length + a := by
    rw [hs]; field_simp
  simp only [normed, List.length_map, hm, List.map_map, Function.comp_def, List.length_map, add_sub_add_right_eq_sub]

/-- **C133.** Only relative positions matter: moving the whole scene by a vector does not change the flows. -/
theorem C133_translation (net : FlowModel) (state : OneHot) (w : ℤ) (ps : List Pt) (hne : ps ≠ []) (d : Pt) :
    net.call state w ((ps.map (· + d)).map V2.fin) = net.call state w (ps.map V2.fin) := by
  have h : normalizeRows ((ps.map (· + d)).map V2.fin) = normalizeRows (ps.map V2.fin) := by
    rw [normalizeRows_fin _ (by simpa using hne), normalizeRows_fin _ hne]
    congr 1
    rw [List.map_map]
    refine List.map_congr_left fun p _ => ?_
    have hx : (ps.map (· + d)).map V2.x = (ps.map V2.x).map (· + d.x) := by simp only [List.map_map]; rfl
    have hy : (ps.map (· + d)).map V2.y = (ps.map V2.y).map (· + d.y) := by simp only [List.map_map]; rfl
    rw [Function.comp, hx, hy]
    ext
    · exact normed_shift _ (by simpa using hne) _ _
    · exact normed_shift _ (by simpa using hne) _ _
  simp only [FlowModel.call, h, List.length_map]

/-- Non-vacuity: a scene with one wall. -/
example := C133_translation plainNet (OneHot.zeros 1 1) 1 [⟨0, 0⟩, ⟨1, 1⟩, ⟨2, 0⟩, ⟨3, 0⟩] (by simp) ⟨5, -2⟩

end DiffeRT2d.Props
