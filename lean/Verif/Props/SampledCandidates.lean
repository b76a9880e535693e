import Verif.Props.FlowModel
import Verif.Props.Candidates
import Mathlib.Probability.ProductMeasure
import Mathlib.MeasureTheory.Constructions.BorelSpace.Order
import Mathlib.MeasureTheory.Function.Floor
import Mathlib.MeasureTheory.Measure.Lebesgue.Basic

/-! # C134: the path candidates that the model of the notebook samples -/

namespace DiffeRT2d.Props
open DiffeRT2d Spec Classical

theorem range_map_of_getElem {n : ℕ} {out : List F} (hl : out.length = n) (g : ℕ → F) (h : ∀ i < n, out[i]? = some (g i)) : out = (List.range n).map g := by
  apply List.ext_getElem?
  intro i
  by_cases hi : i < n
  · simp [h i hi, hi]
  · rw [List.getElem?_eq_none (by omega), List.getElem?_eq_none (by simpa using hi)]

theorem getLast_lt {n : ℕ} {c : List ℕ} (hc : ∀ i ∈ c, i < n) {w : ℕ} (h : c.getLast? = some w) : w < n :=
  hc w (List.mem_of_getLast? h)

/-- **C134.** In a scene with finite points and at least one wall, a network without overflow defines flows between states, as the notebook describes
them: never negative, and zero exactly on the edges that would choose the same wall twice in a row. -/
theorem C134_flows (net : FlowModel) (hnet : FiniteNet net) (n order : ℕ) (hn : 0 < n) (ps : List Pt) (hl : ps.length = 2 + n * 2) :
    ∃ flow, FlowsOf net n order (ps.map V2.fin) flow ∧ (∀ c i, 0 ≤ flow c i) ∧ ∀ c i, flow c i = 0 ↔ c.getLast? = some i := by
  have h := fun c : List ℕ => C133_flow net hnet (encode n order c) (by rw [encode_length]; exact hn) ps (by rw [encode_length]; exact hl)
  choose f hpos hf using h
  refine ⟨fun c i => if c.getLast? = some i then 0 else f c i, fun c hc hcl => ?_, fun c i => ?_, fun c i => ?_⟩
  · obtain ⟨out, he, hol, ho⟩ := hf c ((c.getLast?.getD n : ℕ) : ℤ)
    rw [encode_length] at hol ho
    rw [he, range_map_of_getElem hol _ ho]
    congr 1
    refine List.map_congr_left fun i hi => ?_
    have hin := List.mem_range.mp hi
    congr 1
    refine if_congr ?_ rfl rfl
    rcases hg : c.getLast? with _ | w
    · simp only [Option.getD_none, reduceCtorEq, iff_false]; omega
    · have := getLast_lt hc hg
      simp only [Option.getD_some, Option.some.injEq]; omega
  · dsimp only
    split_ifs
    · exact le_rfl
    · exact (hpos c i).le
  · dsimp only
    split_ifs with hg
    · simp [hg]
    · simp [hg, (hpos c i).ne']

/-- Non-vacuity: a scene with two walls. -/
example := C134_flows plainNet plainNet_finite 2 2 (by norm_num) [⟨0, 0⟩, ⟨1, 1⟩, ⟨2, 0⟩, ⟨3, 0⟩, ⟨4, 0⟩, ⟨4, 7⟩] (by simp)

/-! ## Drawing -/

/-- The logits of the choice of the next wall. -/
noncomputable def nextLogits (n : ℕ) (flow : List ℕ → ℕ → ℝ) (c : List ℕ) : List F :=
  (((List.range n).map fun i => F.fin (flow c i)).map fun f => f / F.sum ((List.range n).map fun i => F.fin (flow c i))).map F.log

theorem chooseWall_eq {Key : Type} (J : Jax Key) (k : Key) (n : ℕ) (flow : List ℕ → ℕ → ℝ) (c : List ℕ) :
    chooseWall J k ((List.range n).map fun i => F.fin (flow c i)) = J.categorical k (nextLogits n flow c) := rfl

theorem flow_sum (n : ℕ) (flow : List ℕ → ℕ → ℝ) (c : List ℕ) : F.sum ((List.range n).map fun i => F.fin (flow c i)) = F.fin (outflow n flow c) := by
  rw [outflow, ← F.sum_fin, List.map_map]; rfl

theorem getLast_append (p : List ℕ) (w : ℕ) : (p ++ [w]).getLast? = some w := by simp

/-- One step of the scan. -/
theorem sampleScan_step {Key : Type} (J : Jax Key) {net : FlowModel} {n order : ℕ} {xys : List (V2 F)} {flow : List ℕ → ℕ → ℝ} (hF : FlowsOf net n order xys flow)
    (p : List ℕ) (hp : ∀ i ∈ p, i < n) (hpl : p.length < order) (k : Key) (rest : List (Key × ℕ)) (w : ℕ) (hw : w < n)
    (hk : J.categorical k (nextLogits n flow p) = w) :
    sampleScan J net xys ((k, p.length) :: rest) ((List.range n).map fun i => F.fin (flow p i)) (encode n order p) = (do
      let others ← sampleScan J net xys rest ((List.range n).map fun i => F.fin (flow (p ++ [w]) i)) (encode n order (p ++ [w]))
      pure ((w : ℤ) :: others)) := by
  have hc := hF (p ++ [w]) (by simp only [List.mem_append, List.mem_singleton]; rintro i (h | rfl); exacts [hp i h, hw]) (by simp; omega)
  rw [getLast_append, Option.getD_some] at hc
  simp only [sampleScan, chooseWall_eq, hk, encode_set, hc]
  rfl

theorem cons_ok {α : Type} (x : Except PyErr (List α)) (w : α) (l : List α) : (do let o ← x; pure (w :: o)) = (Except.ok l : Except PyErr (List α)) ↔
    ∃ o, x = .ok o ∧ l = w :: o := by
  cases x with
  | error e => simp [bind, Except.bind]
  | ok o => simp [bind, Except.bind, pure, Except.pure, eq_comm]

/-- A candidate is drawn if and only if each of its walls is. -/
theorem sampleScan_iff {Key : Type} (J : Jax Key) {net : FlowModel} {n order : ℕ} {xys : List (V2 F)} {flow : List ℕ → ℕ → ℝ} (hF : FlowsOf net n order xys flow) :
    ∀ (c : List ℕ) (p : List ℕ) (ks : List Key), (∀ i ∈ p, i < n) → (∀ i ∈ c, i < n) → p.length + c.length = order → ks.length = c.length →
      (sampleScan J net xys (ks.zip (List.range' p.length c.length)) ((List.range n).map fun i => F.fin (flow p i)) (encode n order p) =
          .ok (c.map fun (i : ℕ) => (i : ℤ)) ↔
        ∀ (i : ℕ) (hi : i < c.length), ∃ k, ks[i]? = some k ∧ J.categorical k (nextLogits n flow (p ++ c.take i)) = c[i])
  | [], p, ks, hp, hc, hl, hk => by
    have : ks = [] := List.length_eq_zero_iff.mp (by simpa using hk)
    simp [this, sampleScan]
  | w :: c, p, [], hp, hc, hl, hk => by simp at hk
  | w :: c, p, k :: ks, hp, hc, hl, hk => by
    have hlt : p.length < order := by simp at hl; omega
    have hw : w < n := hc w (by simp)
    have hpw : ∀ i ∈ p ++ [w], i < n := by simp only [List.mem_append, List.mem_singleton]; rintro i (h | rfl); exacts [hp i h, hw]
    have ih := sampleScan_iff J hF c (p ++ [w]) ks hpw (fun i hi => hc i (by simp [hi])) (by simp at hl ⊢; omega) (by simpa using hk)
    have hz : (k :: ks).zip (List.range' p.length (w :: c).length) = (k, p.length) :: ks.zip (List.range' (p ++ [w]).length c.length) := by
      simp [List.range'_succ]
    rw [hz]
    constructor
    · intro h
      have hk0 : J.categorical k (nextLogits n flow p) = w := by
        simp only [sampleScan, chooseWall_eq] at h
        rcases hcall : net.call ((encode n order p).set (J.categorical k (nextLogits n flow p)) p.length) (J.categorical k (nextLogits n flow p)) xys with e | out
        · rw [hcall] at h; simp [bind, Except.bind] at h
        · rw [hcall] at h
          obtain ⟨o, -, ho⟩ := (cons_ok _ _ _).mp h
          simp only [List.map_cons, List.cons.injEq, Nat.cast_inj] at ho
          exact ho.1.symm
      rw [sampleScan_step J hF p hp hlt k _ w hw hk0] at h
      obtain ⟨o, ho, hoc⟩ := (cons_ok _ _ _).mp h
      simp only [List.map_cons, List.cons.injEq, true_and] at hoc
      have h' := ih.mp (by rw [ho, hoc])
      intro i hi
      cases i with
      | zero => exact ⟨k, rfl, by simpa using hk0⟩
      | succ i =>
        obtain ⟨k', e1, e2⟩ := h' i (by simpa using hi)
        exact ⟨k', by simpa using e1, by simpa using e2⟩
    · intro h
      obtain ⟨k', e1, hk0⟩ := h 0 (by simp)
      obtain rfl : k = k' := by simpa using e1
      rw [sampleScan_step J hF p hp hlt k _ w hw (by simpa using hk0)]
      refine (cons_ok _ _ _).mpr ⟨_, ih.mpr fun i hi => ?_, rfl⟩
      obtain ⟨k', e1, e2⟩ := h (i + 1) (by simpa using hi)
      exact ⟨k', by simpa using e1, by simpa using e2⟩

theorem sampleCandidate_iff {Key : Type} (J : Jax Key) {net : FlowModel} {n order : ℕ} {ps : List Pt} {flow : List ℕ → ℕ → ℝ}
    (hl : ps.length = 2 + n * 2) (hF : FlowsOf net n order (ps.map V2.fin) flow) (key : Key) (hk : (J.split key order).length = order)
    (c : List ℕ) (hc : ∀ i ∈ c, i < n) (hcl : c.length = order) :
    sampleCandidate J net (ps.map V2.fin) order key = .ok (c.map fun (i : ℕ) => (i : ℤ)) ↔
      ∀ (i : ℕ) (hi : i < c.length), ∃ k, (J.split key order)[i]? = some k ∧ J.categorical k (nextLogits n flow (c.take i)) = c[i] := by
  subst hcl
  have hnw : ((ps.map V2.fin).length - 2) / 2 = n := by rw [List.length_map, hl]; omega
  have h0 := hF [] (by simp) (by simp)
  simp only [List.getLast?_nil, Option.getD_none, ← zeros_encode] at h0
  have := sampleScan_iff J hF c [] (J.split key c.length) (by simp) hc (by simp) hk
  simp only [List.nil_append, List.length_nil, ← zeros_encode] at this
  rw [← this]
  simp only [sampleCandidate, hnw, h0]
  rw [List.range_eq_range' (n := c.length)]
  rfl

theorem goodFlows_pos {flow : List ℕ → ℕ → ℝ} (h : GoodFlows flow) {c : List ℕ} {i : ℕ} (hi : c.getLast? ≠ some i) : 0 < flow c i :=
  lt_of_le_of_ne (h.nonneg c i) fun e => hi ((h.stopped c i).mp e.symm)

theorem le_outflow {n : ℕ} {flow : List ℕ → ℕ → ℝ} (h : GoodFlows flow) (c : List ℕ) {i : ℕ} (hi : i < n) : flow c i ≤ outflow n flow c :=
  List.single_le_sum (by simp only [List.mem_map]; rintro x ⟨j, -, rfl⟩; exact h.nonneg c j) _ (List.mem_map.mpr ⟨i, by simpa using hi, rfl⟩)

/-- Some wall can be chosen next, unless there is only one and it has just been chosen. -/
theorem outflow_pos {n : ℕ} {flow : List ℕ → ℕ → ℝ} (h : GoodFlows flow) (c : List ℕ) (hn : 0 < n) (hc : 2 ≤ n ∨ c = []) : 0 < outflow n flow c := by
  obtain ⟨i, hi, hg⟩ : ∃ i < n, c.getLast? ≠ some i := by
    rcases hc with hc | rfl
    · by_cases h0 : c.getLast? = some 0
      · exact ⟨1, by omega, by simp [h0]⟩
      · exact ⟨0, by omega, h0⟩
    · exact ⟨0, hn, by simp⟩
  exact lt_of_lt_of_le (goodFlows_pos h hg) (le_outflow h c hi)

theorem nextLogits_eq {n : ℕ} {flow : List ℕ → ℕ → ℝ} (h : GoodFlows flow) (c : List ℕ) (hZ : 0 < outflow n flow c) :
    nextLogits n flow c = (List.range n).map fun i => if flow c i = 0 then F.ninf else F.fin (Real.log (flow c i / outflow n flow c)) := by
  rw [nextLogits, flow_sum, List.map_map, List.map_map]
  refine List.map_congr_left fun i _ => ?_
  simp only [Function.comp, F.fin_div _ hZ.ne', F.log]
  have h0 : 0 ≤ flow c i / outflow n flow c := div_nonneg (h.nonneg c i) hZ.le
  simp only [not_lt.mpr h0, if_false, div_eq_zero_iff, hZ.ne', or_false]

theorem nextLogits_logits {n : ℕ} {flow : List ℕ → ℕ → ℝ} (h : GoodFlows flow) (c : List ℕ) (hZ : 0 < outflow n flow c) : Logits (nextLogits n flow c) := by
  rw [nextLogits_eq h c hZ]
  constructor
  · simp only [List.mem_map]
    rintro x ⟨i, -, rfl⟩
    split_ifs
    · exact .inl rfl
    · exact .inr ⟨_, rfl⟩
  · by_contra hne
    refine hZ.ne' (List.sum_eq_zero fun x hx => ?_)
    obtain ⟨i, hi, rfl⟩ := List.mem_map.mp hx
    by_contra h0
    exact hne ⟨_, List.mem_map.mpr ⟨i, hi, rfl⟩, _, if_neg h0⟩

theorem nextLogits_length (n : ℕ) (flow : List ℕ → ℕ → ℝ) (c : List ℕ) : (nextLogits n flow c).length = n := by simp [nextLogits]

theorem nextLogits_softmax {n : ℕ} {flow : List ℕ → ℕ → ℝ} (h : GoodFlows flow) (c : List ℕ) (hZ : 0 < outflow n flow c) (i : ℕ) (hi : i < n) :
    softmax (nextLogits n flow c) i = flow c i / outflow n flow c := by
  have hw : ∀ j, logitWeight (if flow c j = 0 then F.ninf else F.fin (Real.log (flow c j / outflow n flow c))) = flow c j / outflow n flow c := by
    intro j
    split_ifs with h0
    · simp [h0, logitWeight]
    · exact Real.exp_log (div_pos (lt_of_le_of_ne (h.nonneg c j) (Ne.symm h0)) hZ)
  have hs : ((nextLogits n flow c).map logitWeight).sum = 1 := by
    rw [nextLogits_eq h c hZ, List.map_map]
    have : (logitWeight ∘ fun i => if flow c i = 0 then F.ninf else F.fin (Real.log (flow c i / outflow n flow c))) = fun i => flow c i * (outflow n flow c)⁻¹ := by
      funext j; rw [Function.comp, hw, div_eq_mul_inv]
    rw [this, List.sum_map_mul_right]
    exact mul_inv_cancel₀ hZ.ne'
  rw [softmax, hs, div_one, List.getD_eq_getElem?_getD, nextLogits_eq h c hZ]
  rw [List.getElem?_map, List.getElem?_range hi, Option.map_some, Option.getD_some, hw]

/-- What is drawn next is a wall, and not the last one chosen. -/
theorem draw_ok {Key : Type} {J : Jax Key} (hJ : SupportContract J) {n : ℕ} {flow : List ℕ → ℕ → ℝ} (h : GoodFlows flow) (c : List ℕ) (hZ : 0 < outflow n flow c) (k : Key) :
    J.categorical k (nextLogits n flow c) < n ∧ c.getLast? ≠ some (J.categorical k (nextLogits n flow c)) := by
  have hlen := nextLogits_length n flow c
  obtain ⟨x, hx, -⟩ := (nextLogits_logits h c hZ).2
  have hi : J.categorical k (nextLogits n flow c) < n := by
    have := hJ.index k (nextLogits n flow c) (List.ne_nil_of_mem hx); omega
  refine ⟨hi, fun hg => ?_⟩
  obtain ⟨r, hr⟩ := hJ.support k _ (nextLogits_logits h c hZ)
  rw [List.getD_eq_getElem?_getD] at hr
  generalize J.categorical k (nextLogits n flow c) = w at hi hg hr
  rw [nextLogits_eq h c hZ, List.getElem?_map, List.getElem?_range hi, Option.map_some, Option.getD_some, if_pos ((h.stopped c w).mpr hg)] at hr
  cases hr

theorem draws_exist {Key : Type} {J : Jax Key} (hJ : SupportContract J) {n : ℕ} {flow : List ℕ → ℕ → ℝ} (h : GoodFlows flow) (hn : 0 < n) :
    ∀ (ks : List Key) (p : List ℕ), (2 ≤ n ∨ p = [] ∧ ks.length ≤ 1 ∨ ks = []) → ∃ c : List ℕ, c.length = ks.length ∧ (∀ i ∈ c, i < n) ∧
      (∀ (i : ℕ) (hi : i < c.length), ∃ k, ks[i]? = some k ∧ J.categorical k (nextLogits n flow (p ++ c.take i)) = c[i]) ∧
      (∀ (i : ℕ) (hi : i < c.length), (p ++ c.take i).getLast? ≠ some c[i])
  | [], p, _ => ⟨[], rfl, by simp, by simp, by simp⟩
  | k :: ks, p, hp => by
    have hZ : 0 < outflow n flow p := outflow_pos h p hn (by
      rcases hp with hp | hp | hp
      · exact .inl hp
      · exact .inr hp.1
      · cases hp)
    obtain ⟨hw, hg⟩ := draw_ok hJ h p hZ k
    generalize he : J.categorical k (nextLogits n flow p) = w at hw hg
    obtain ⟨c, hcl, hc, hd, hch⟩ := draws_exist hJ h hn ks (p ++ [w]) (by
      rcases hp with hp | ⟨-, hp⟩ | hp
      · exact .inl hp
      · exact .inr (.inr (List.length_eq_zero_iff.mp (by simpa using hp)))
      · cases hp)
    refine ⟨w :: c, by simp [hcl], by simp [hw]; exact hc, fun i hi => ?_, fun i hi => ?_⟩
    · cases i with
      | zero => exact ⟨k, rfl, by simpa using he⟩
      | succ i =>
        obtain ⟨k', e1, e2⟩ := hd i (by simpa using hi)
        exact ⟨k', by simpa using e1, by simpa using e2⟩
    · cases i with
      | zero => simpa using hg
      | succ i => simpa using hch i (by simpa using hi)

/-- **C134.** Whatever the key, the model samples a path candidate of the order asked for: indices of walls, never the same twice in a row (if there are at
least two walls, or one and the order is at most 1). -/
theorem C134_sampled {Key : Type} (J : Jax Key) (hJ : SupportContract J) (net : FlowModel) (hnet : FiniteNet net) (n order : ℕ) (hn : 0 < n)
    (hno : 2 ≤ n ∨ order ≤ 1) (ps : List Pt) (hl : ps.length = 2 + n * 2) (key : Key) :
    ∃ c, sampleCandidate J net (ps.map V2.fin) order key = .ok c ∧ c.length = order ∧ IsCandidate n c := by
  obtain ⟨flow, hF, h1, h2⟩ := C134_flows net hnet n order hn ps hl
  obtain ⟨c, hcl, hc, hd, hch⟩ := draws_exist hJ ⟨h1, h2⟩ hn (J.split key order) [] (by rw [hJ.split]; exact hno.imp id fun h => .inl ⟨rfl, h⟩)
  rw [hJ.split] at hcl
  refine ⟨c.map fun (i : ℕ) => (i : ℤ), (sampleCandidate_iff J hl hF key (hJ.split _ _) c hc hcl).mpr (by simpa using hd), by simpa using hcl, ?_, ?_⟩
  · intro i hi
    obtain ⟨j, hj, rfl⟩ := List.mem_map.mp hi
    have := hc j hj
    omega
  · intro k a b ha hb hab
    simp only [List.getElem?_map, Option.map_eq_some_iff] at ha hb
    obtain ⟨x, hx, rfl⟩ := ha
    obtain ⟨y, hy, rfl⟩ := hb
    obtain rfl : x = y := by exact_mod_cast hab
    obtain ⟨hk, hy'⟩ := List.getElem?_eq_some_iff.mp hy
    have := hch (k + 1) hk
    rw [List.nil_append, List.take_add_one, hx] at this
    simp [hy'] at this

/-- **C134.** So it samples among the candidates that the library enumerates for this order. -/
theorem C134_enumerated {Key : Type} (G : GraphLib) (hG : GraphContract G) (J : Jax Key) (hJ : SupportContract J) (net : FlowModel) (hnet : FiniteNet net)
    (tx rx : Pt) (walls : List (Pt × Pt)) (order : ℕ) (hn : walls ≠ []) (hno : 2 ≤ walls.length ∨ order ≤ 1) (key : Key) :
    ∃ scene cs c, sample2Scene (sampleRows tx rx walls) = .ok scene ∧ scene.allPathCandidates G { minOrder := order, maxOrder := order } = .ok cs ∧
      sampleCandidate J net (sampleRows tx rx walls) order key = .ok c ∧ c ∈ cs := by
  have hrows : sampleRows tx rx walls = (tx :: rx :: walls.flatMap fun w => [w.1, w.2]).map V2.fin := by
    simp [sampleRows, List.map_flatMap]
  have hlen : (tx :: rx :: walls.flatMap fun w => [w.1, w.2]).length = 2 + walls.length * 2 := by
    have : ∀ l : List (Pt × Pt), (l.flatMap fun w => [w.1, w.2]).length = l.length * 2 := by
      intro l
      induction l with
      | nil => rfl
      | cons w l ih => simp only [List.flatMap_cons, List.length_append, ih, List.length_cons, List.length_nil]; omega
    simp only [List.length_cons, this]; omega
  obtain ⟨cs, hcs, -, hmem, -⟩ := C53_sound_complete G hG (wallScene [("tx", tx)] [("rx", rx)] walls) order order (by omega)
  obtain ⟨c, h1, h2, h3⟩ := C134_sampled J hJ net hnet walls.length order (List.length_pos_iff.mpr hn) hno _ hlen key
  refine ⟨_, cs, c, C131_scene tx rx walls, hcs, by rw [hrows]; exact h1, (hmem c).mpr ⟨?_, by omega, by omega⟩⟩
  simpa [wallScene, sceneOf, Scene.make] using h3

/-- **C134.** The law of the sampler. For a random key, each candidate is sampled with the probability that the notebook defines: the product, over its
steps, of the flow of the edge divided by the flow that leaves the state. -/
theorem C134_law {Key : Type} [MeasurableSpace Key] (μ : MeasureTheory.Measure Key) (J : Jax Key) (hs : ∀ k n, (J.split k n).length = n) (hJ : RandomContract J μ)
    (net : FlowModel) (n order : ℕ) (hno : 2 ≤ n ∨ order ≤ 1) (ps : List Pt) (hl : ps.length = 2 + n * 2) (flow : List ℕ → ℕ → ℝ)
    (hF : FlowsOf net n order (ps.map V2.fin) flow) (hgood : GoodFlows flow) (c : List ℕ) (hc : ∀ i ∈ c, i < n) (hcl : c.length = order) :
    μ {key | sampleCandidate J net (ps.map V2.fin) order key = .ok (c.map fun (i : ℕ) => (i : ℤ))} = ENNReal.ofReal (probability n flow c) := by
  subst hcl
  have hZ : ∀ i : Fin c.length, 0 < outflow n flow (c.take i) := fun i => by
    have hi := i.isLt
    refine outflow_pos hgood _ (by have := hc c[i] (List.getElem_mem _); omega) (hno.imp id fun h => ?_)
    rw [show (i : ℕ) = 0 by omega, List.take_zero]
  have key := hJ c.length (fun i => nextLogits n flow (c.take i)) (fun i => c[i]) (fun i => nextLogits_logits hgood _ (hZ i))
    (fun i => by rw [nextLogits_length]; exact hc _ (List.getElem_mem _))
  rw [show probability n flow c = ∏ i : Fin c.length, softmax (nextLogits n flow (c.take i)) c[i] from
    Finset.prod_congr rfl fun i _ => (nextLogits_softmax hgood _ (hZ i) _ (hc _ (List.getElem_mem _))).symm, ← key]
  congr 1
  ext k
  exact (sampleCandidate_iff J hl hF k (hs _ _) c hc rfl).trans ⟨fun h i => h i i.isLt, fun h i hi => h ⟨i, hi⟩⟩

/-- **C134.** So every path candidate has a positive probability, and a list with the same wall twice in a row has none. -/
theorem C134_possible (n : ℕ) (flow : List ℕ → ℕ → ℝ) (hgood : GoodFlows flow) (c : List ℕ) (hc : ∀ i ∈ c, i < n) (hno : 2 ≤ n ∨ c.length ≤ 1) :
    (IsCandidate n (c.map fun (i : ℕ) => (i : ℤ)) → 0 < probability n flow c) ∧
      (¬ IsCandidate n (c.map fun (i : ℕ) => (i : ℤ)) → probability n flow c = 0) := by
  constructor
  · intro h
    refine Finset.prod_pos fun i _ => ?_
    have hi := i.isLt
    refine div_pos (goodFlows_pos hgood fun hg => ?_) (outflow_pos hgood _ (by have := hc c[i] (List.getElem_mem _); omega) (hno.imp id fun h => ?_))
    · obtain ⟨j, hj⟩ : ∃ j, (i : ℕ) = j + 1 := Nat.exists_eq_succ_of_ne_zero fun h0 => by rw [h0] at hg; simp at hg
      have hj' : j < c.length := by omega
      simp only [Fin.getElem_fin] at hg
      have ht : (c.take (i : ℕ)).getLast? = some c[j] := by rw [hj, List.take_add_one, List.getElem?_eq_getElem hj', Option.toList_some]; exact getLast_append _ _
      have hg' : c[j] = c[(i : ℕ)] := Option.some.inj (ht.symm.trans hg)
      refine h.2 j c[j] c[(i : ℕ)] ?_ ?_ (by exact_mod_cast hg')
      · simp [List.getElem?_eq_getElem hj']
      · rw [← hj]; simp
    · rw [show (i : ℕ) = 0 by omega, List.take_zero]
  · intro h
    have hb : ∀ i ∈ c.map fun (i : ℕ) => (i : ℤ), 0 ≤ i ∧ i < n := by
      intro i hi
      obtain ⟨j, hj, rfl⟩ := List.mem_map.mp hi
      have := hc j hj
      omega
    simp only [IsCandidate, not_and, not_forall, not_not] at h
    obtain ⟨k, a, b, ha, hb', hab⟩ := h hb
    subst hab
    simp only [List.getElem?_map, Option.map_eq_some_iff] at ha hb'
    obtain ⟨x, hx, rfl⟩ := ha
    obtain ⟨y, hy, hxy⟩ := hb'
    obtain rfl : y = x := by exact_mod_cast hxy
    obtain ⟨hk, hy'⟩ := List.getElem?_eq_some_iff.mp hy
    refine Finset.prod_eq_zero (Finset.mem_univ ⟨k + 1, hk⟩) ?_
    have : flow (c.take (k + 1)) c[k + 1] = 0 := (hgood.stopped _ _).mpr (by rw [List.take_add_one, hx]; simp [hy'])
    simp [this]

/-- **C134, finding.** With a single wall and an order of at least 2 there is no candidate, but the sampler reports no error: the probabilities are NaN, and it
returns the wall again and again. -/
theorem C134_single_wall {Key : Type} (J : Jax Key) (hJ : SupportContract J) (net : FlowModel) (hnet : FiniteNet net) (order : ℕ) (ho : 2 ≤ order)
    (ps : List Pt) (hl : ps.length = 4) (key : Key) :
    sampleCandidate J net (ps.map V2.fin) order key = .ok (List.replicate order 0) ∧ ∀ c, c.length = order → ¬ IsCandidate 1 c := by
  obtain ⟨flow, hF, h1, h2⟩ := C134_flows net hnet 1 order one_pos ps (by omega)
  constructor
  · have := (sampleCandidate_iff J (by omega) hF key (hJ.split _ _) (List.replicate order 0) (fun i hi => by rw [List.eq_of_mem_replicate hi]; exact one_pos) (by simp)).mpr
      fun i hi => by
        have hi' : i < (J.split key order).length := by rw [hJ.split]; simpa using hi
        refine ⟨(J.split key order)[i], List.getElem?_eq_getElem hi', ?_⟩
        have := hJ.index (J.split key order)[i] (nextLogits 1 flow ((List.replicate order 0).take i)) (by rw [← List.length_pos_iff, nextLogits_length]; exact one_pos)
        rw [nextLogits_length] at this
        rw [List.getElem_replicate]; exact Nat.lt_one_iff.mp this
    simpa using this
  · rintro c hcl ⟨hb, hne⟩
    have h0 := hb (c[0]'(by omega)) (List.getElem_mem _)
    have h1 := hb (c[0 + 1]'(by omega)) (List.getElem_mem _)
    exact hne 0 _ _ (List.getElem?_eq_getElem (by omega)) (List.getElem?_eq_getElem (by omega)) (by omega)

/-- Its second draw asks for a NaN logit. -/
theorem C134_single_nan (net : FlowModel) (hnet : FiniteNet net) (order : ℕ) (ho : 1 ≤ order) (ps : List Pt) (hl : ps.length = 4) :
    ∃ flow, net.call (encode 1 order [0]) 0 (ps.map V2.fin) = .ok flow ∧ (flow.map fun f => f / F.sum flow).map F.log = [F.nan] := by
  obtain ⟨flow, hF, h1, h2⟩ := C134_flows net hnet 1 order one_pos ps (by omega)
  refine ⟨_, hF [0] (by simp) (by simpa using ho), ?_⟩
  rw [flow_sum]
  have h0 : flow [0] 0 = 0 := (h2 [0] 0).mpr rfl
  have hd : F.fin 0 / F.fin 0 = F.nan := by simp [HDiv.hDiv, Div.div, F.div]
  simp [outflow, h0, hd, F.log]

/-! ## A generator that keeps both contracts: inversion of the cumulative distribution function -/

/-- The cumulative weights. -/
noncomputable def cumulative (l : List F) (j : ℕ) : ℝ := ((l.take j).map logitWeight).sum / (l.map logitWeight).sum

/-- The number of logits before the one that the number `u` in [0, 1) selects. -/
noncomputable def invert (u : ℝ) (l : List F) : ℕ := ((List.range (l.length - 1)).filter fun j => decide (cumulative l (j + 1) ≤ u)).length

theorem logitWeight_nonneg (x : F) : 0 ≤ logitWeight x := by
  cases x <;> simp only [logitWeight, le_refl]; positivity

theorem logits_total {l : List F} (h : Logits l) : 0 < (l.map logitWeight).sum := by
  obtain ⟨x, hx, r, rfl⟩ := h.2
  refine lt_of_lt_of_le (Real.exp_pos r) (List.single_le_sum ?_ _ (List.mem_map.mpr ⟨_, hx, rfl⟩))
  simp only [List.mem_map]; rintro y ⟨z, -, rfl⟩; exact logitWeight_nonneg z

theorem cumulative_succ (l : List F) (j : ℕ) : cumulative l (j + 1) = cumulative l j + softmax l j := by
  unfold cumulative softmax
  rw [← add_div, List.take_add_one, List.map_append, List.sum_append, List.getD_eq_getElem?_getD]
  rcases l[j]? with _ | x <;> simp [logitWeight]

theorem softmax_nonneg (l : List F) (j : ℕ) : 0 ≤ softmax l j :=
  div_nonneg (logitWeight_nonneg _) (List.sum_nonneg (by simp only [List.mem_map]; rintro y ⟨z, -, rfl⟩; exact logitWeight_nonneg z))

theorem cumulative_mono (l : List F) : Monotone (cumulative l) :=
  monotone_nat_of_le_succ fun j => by rw [cumulative_succ]; exact le_add_of_nonneg_right (softmax_nonneg l j)

theorem cumulative_zero (l : List F) : cumulative l 0 = 0 := by simp [cumulative]

theorem cumulative_last {l : List F} (h : Logits l) : cumulative l l.length = 1 := by
  rw [cumulative, List.take_length]; exact div_self (logits_total h).ne'

theorem count_initial (p : ℕ → Bool) (hp : ∀ i j, i ≤ j → p j = true → p i = true) (m c : ℕ) (hc : c ≤ m) :
    ((List.range m).filter p).length = c ↔ (∀ i < c, p i = true) ∧ (c < m → p c = false) := by
  induction m generalizing c with
  | zero => simp at hc; simp [hc]
  | succ m ih =>
    rw [List.range_succ, List.filter_append, List.length_append]
    have hle : ((List.range m).filter p).length ≤ m := by simpa using List.length_filter_le p (List.range m)
    by_cases hm : p m = true
    · have hall : ∀ i < m, p i = true := fun i hi => hp i m hi.le hm
      have hfull : (List.range m).filter p = List.range m := List.filter_eq_self.mpr fun i hi => hall i (List.mem_range.mp hi)
      simp only [hfull, List.length_range, List.filter_cons, hm, if_true, List.filter_nil, List.length_singleton]
      constructor
      · rintro rfl
        exact ⟨fun i hi => by rcases Nat.lt_succ_iff_lt_or_eq.mp hi with h | rfl; exacts [hall i h, hm], fun h => absurd h (lt_irrefl _)⟩
      · rintro ⟨h1, h2⟩
        by_contra hne
        have hlt : c < m + 1 := by omega
        have := h2 hlt
        rcases Nat.lt_succ_iff_lt_or_eq.mp hlt with h | rfl
        · rw [hall c h] at this; cases this
        · rw [hm] at this; cases this
    · simp only [List.filter_cons, hm, Bool.false_eq_true, if_false, List.filter_nil, List.length_nil, add_zero]
      by_cases hcm : c ≤ m
      · rw [ih c hcm]
        refine and_congr_right fun _ => ⟨fun h hlt => ?_, fun h hlt => h (by omega)⟩
        rcases Nat.lt_succ_iff_lt_or_eq.mp hlt with h' | rfl
        · exact h h'
        · simpa using hm
      · obtain rfl : c = m + 1 := by omega
        constructor
        · intro h; omega
        · rintro ⟨h1, -⟩; exact absurd (h1 m (by omega)) hm

theorem invert_iff {l : List F} (h : Logits l) {u : ℝ} (hu0 : 0 ≤ u) (hu1 : u < 1) (c : ℕ) (hc : c < l.length) :
    invert u l = c ↔ cumulative l c ≤ u ∧ u < cumulative l (c + 1) := by
  unfold invert
  rw [count_initial _ (fun i j hij hj => by
    simp only [decide_eq_true_eq] at hj ⊢
    exact (cumulative_mono l (by omega)).trans hj) _ c (by omega)]
  simp only [decide_eq_true_eq, decide_eq_false_iff_not, not_le]
  constructor
  · rintro ⟨h1, h2⟩
    constructor
    · rcases c with _ | c
      · rw [cumulative_zero]; exact hu0
      · exact h1 c (by omega)
    · by_cases hcl : c < l.length - 1
      · exact h2 hcl
      · rw [show c + 1 = l.length by omega, cumulative_last h]; exact hu1
  · rintro ⟨h1, h2⟩
    exact ⟨fun i hi => (cumulative_mono l (by omega)).trans h1, fun _ => h2⟩

/-- A key is an infinite sequence of numbers; drawing uses the fractional part of the first one. -/
noncomputable def inversionJax : Jax (ℕ → ℝ) where
  split k n := (List.range n).map fun i => fun _ => k i
  uniform0 _ a _ := a
  uniform1 _ n a _ := List.replicate n a
  uniform2 _ n := List.replicate n (V2.fin ⟨1 / 4, 1 / 2⟩)
  randint _ a _ := a
  choice _ l n := l.take n
  categorical k l := invert (Int.fract (k 0)) l

theorem inversionJax_support : SupportContract inversionJax where
  split k n := by simp [inversionJax]
  index k l hl := by
    have := List.length_filter_le (fun j => decide (cumulative l (j + 1) ≤ Int.fract (k 0))) (List.range (l.length - 1))
    have hpos := List.length_pos_iff.mpr hl
    simp only [inversionJax, invert, List.length_range] at this ⊢
    omega
  support k l hl := by
    have hne : l ≠ [] := List.ne_nil_of_mem hl.2.choose_spec.1
    have hlt : invert (Int.fract (k 0)) l < l.length := by
      have := List.length_filter_le (fun j => decide (cumulative l (j + 1) ≤ Int.fract (k 0))) (List.range (l.length - 1))
      have hpos := List.length_pos_iff.mpr hne
      simp only [invert, List.length_range] at this ⊢
      omega
    obtain ⟨h1, h2⟩ := (invert_iff hl (Int.fract_nonneg (k 0)) (Int.fract_lt_one (k 0)) _ hlt).mp rfl
    have hpos : 0 < softmax l (invert (Int.fract (k 0)) l) := by rw [cumulative_succ] at h2; linarith
    have hm : l.getD (invert (Int.fract (k 0)) l) F.ninf ∈ l := by
      rw [List.getD_eq_getElem?_getD, List.getElem?_eq_getElem hlt]; exact List.getElem_mem hlt
    rcases hl.1 _ hm with h | h
    · rw [softmax, h] at hpos; simp [logitWeight] at hpos
    · exact h

/-- Uniform numbers in [0, 1), independent. -/
noncomputable def uniformKeys : MeasureTheory.Measure (ℕ → ℝ) :=
  MeasureTheory.Measure.infinitePi fun _ => MeasureTheory.volume.restrict (Set.Ico (0 : ℝ) 1)

instance : MeasureTheory.IsProbabilityMeasure (MeasureTheory.volume.restrict (Set.Ico (0 : ℝ) 1)) := ⟨by simp⟩

theorem inversionJax_random : RandomContract inversionJax uniformKeys := by
  intro m L c hL hc
  have hcl : ∀ i : Fin m, cumulative (L i) (c i + 1) ≤ 1 := fun i => by
    rw [← cumulative_last (hL i)]; exact cumulative_mono _ (hc i)
  have hc0 : ∀ i : Fin m, 0 ≤ cumulative (L i) (c i) := fun i => by
    rw [← cumulative_zero (L i)]; exact cumulative_mono _ (Nat.zero_le _)
  set T : ℕ → Set ℝ := fun i => if h : i < m then {u | invert (Int.fract u) (L ⟨i, h⟩) = c ⟨i, h⟩} else Set.univ with hT
  have hTmeas : ∀ i, MeasurableSet (T i) := by
    intro i
    by_cases h : i < m
    · have : T i = Int.fract ⁻¹' (Set.Ico (cumulative (L ⟨i, h⟩) (c ⟨i, h⟩)) (cumulative (L ⟨i, h⟩) (c ⟨i, h⟩ + 1))) := by
        ext u
        simp only [hT, h, dif_pos, Set.mem_setOf_eq, Set.mem_preimage, Set.mem_Ico]
        exact invert_iff (hL _) (Int.fract_nonneg u) (Int.fract_lt_one u) _ (hc _)
      rw [this]
      exact measurable_fract measurableSet_Ico
    · simp [hT, h]
  have hset : {k : ℕ → ℝ | ∀ i : Fin m, ∃ k', (inversionJax.split k m)[(i : ℕ)]? = some k' ∧ inversionJax.categorical k' (L i) = c i} =
      Set.pi (Finset.range m) T := by
    ext k
    simp only [Set.mem_setOf_eq, Set.mem_pi, Finset.coe_range, Set.mem_Iio, hT]
    constructor
    · intro h i hi
      obtain ⟨k', e1, e2⟩ := h ⟨i, hi⟩
      rw [dif_pos hi]
      simp only [inversionJax, List.getElem?_map, List.getElem?_range hi, Option.map_some, Option.some.injEq] at e1 e2
      rw [← e1] at e2
      exact e2
    · intro h i
      have := h i i.isLt
      rw [dif_pos i.isLt] at this
      exact ⟨fun _ => k i, by simp [inversionJax], this⟩
  rw [hset, uniformKeys, MeasureTheory.Measure.infinitePi_pi _ fun i _ => hTmeas i, ENNReal.ofReal_prod_of_nonneg fun i _ => softmax_nonneg _ _,
    ← Fin.prod_univ_eq_prod_range fun i => (MeasureTheory.volume.restrict (Set.Ico (0 : ℝ) 1)) (T i)]
  refine Finset.prod_congr rfl fun i _ => ?_
  rw [MeasureTheory.Measure.restrict_apply (hTmeas i)]
  have : T i ∩ Set.Ico 0 1 = Set.Ico (cumulative (L i) (c i)) (cumulative (L i) (c i + 1)) := by
    ext u
    simp only [hT, i.isLt, dif_pos, Set.mem_inter_iff, Set.mem_setOf_eq, Set.mem_Ico]
    constructor
    · rintro ⟨h, h0, h1⟩
      have := (invert_iff (hL i) (Int.fract_nonneg u) (Int.fract_lt_one u) _ (hc i)).mp h
      rwa [Int.fract_eq_self.mpr ⟨h0, h1⟩] at this
    · rintro ⟨h1, h2⟩
      have hu : 0 ≤ u ∧ u < 1 := ⟨(hc0 i).trans h1, h2.trans_le (hcl i)⟩
      refine ⟨(invert_iff (hL i) (Int.fract_nonneg u) (Int.fract_lt_one u) _ (hc i)).mpr ?_, hu⟩
      rw [Int.fract_eq_self.mpr hu]
      exact ⟨h1, h2⟩
  rw [this, Real.volume_Ico, cumulative_succ, add_sub_cancel_left]

/-- Non-vacuity: two walls, order 2; the candidate that visits the second wall, then the first. -/
example : ∃ flow, uniformKeys {key | sampleCandidate inversionJax plainNet (([⟨0, 0⟩, ⟨1, 1⟩, ⟨2, 0⟩, ⟨3, 0⟩, ⟨4, 0⟩, ⟨4, 7⟩] : List Pt).map V2.fin) 2 key = .ok [1, 0]} =
    ENNReal.ofReal (probability 2 flow [1, 0]) ∧ 0 < probability 2 flow [1, 0] := by
  obtain ⟨flow, hF, h1, h2⟩ := C134_flows plainNet plainNet_finite 2 2 (by norm_num) [⟨0, 0⟩, ⟨1, 1⟩, ⟨2, 0⟩, ⟨3, 0⟩, ⟨4, 0⟩, ⟨4, 7⟩] (by simp)
  refine ⟨flow, C134_law uniformKeys inversionJax inversionJax_support.split inversionJax_random plainNet 2 2 (by simp) _ (by simp) flow hF ⟨h1, h2⟩ [1, 0] (by simp) rfl, ?_⟩
  refine (C134_possible 2 flow ⟨h1, h2⟩ [1, 0] (by simp) (by simp)).1 ⟨by simp, ?_⟩
  intro k a b ha hb
  rcases k with _ | k
  · simp at ha hb; omega
  · simp at hb

/-- Non-vacuity: the deterministic contract. -/
example := C134_sampled inversionJax inversionJax_support plainNet plainNet_finite 2 5 (by norm_num) (by simp) [⟨0, 0⟩, ⟨1, 1⟩, ⟨2, 0⟩, ⟨3, 0⟩, ⟨4, 0⟩, ⟨4, 7⟩] (by simp)
  fun _ => 0

example := C134_single_wall inversionJax inversionJax_support plainNet plainNet_finite 2 le_rfl [⟨0, 0⟩, ⟨1, 1⟩, ⟨2, 0⟩, ⟨3, 0⟩] (by simp) fun _ => 0

end DiffeRT2d.Props
