import Verif.Props.SampledCandidates
import Verif.Props.Reward
import Mathlib.Algebra.Order.Chebyshev

/-! # C135: the loss of the notebook, and what minimizing it achieves -/

namespace DiffeRT2d.Props
open DiffeRT2d Spec Classical

/-! ## Flow consistency and probabilities -/

/-- Telescoping: the flow that reaches the end of a candidate, from the state `p`. -/
theorem telescope {n : ℕ} {flow : List ℕ → ℕ → ℝ} (hgood : GoodFlows flow) (R : ℝ) :
    ∀ (c p : List ℕ), c ≠ [] → (∀ i ∈ c, i < n) → (∀ i : Fin c.length, 0 < outflow n flow (p ++ c.take i)) →
      |outflow n flow p * (∏ t : Fin c.length, flow (p ++ c.take t) c[t] / outflow n flow (p ++ c.take t)) - R| ≤
        ∑ t : Fin c.length, |flow (p ++ c.take t) c[t] - if t + 1 = c.length then R else outflow n flow (p ++ c.take (t + 1))|
  | [], _, h, _, _ => absurd rfl h
  | [w], p, _, hc, hZ => by
    have hz : outflow n flow p ≠ 0 := by have := hZ ⟨0, by simp⟩; simp only [List.take_zero, List.append_nil] at this; exact this.ne'
    simp only [List.length_singleton, Fin.prod_univ_one, Fin.sum_univ_one, Fin.val_zero, List.take_zero, List.append_nil, zero_add, if_true,
      Fin.getElem_fin, List.getElem_cons_zero]
    rw [mul_div_cancel₀ _ hz]
  | w :: w' :: c, p, _, hc, hZ => by
    have hz : 0 < outflow n flow p := by have := hZ ⟨0, by simp⟩; simpa only [List.take_zero, List.append_nil] using this
    have ih := telescope hgood R (w' :: c) (p ++ [w]) (by simp) (fun i hi => hc i (by simp [hi])) (fun i => by
      have := hZ i.succ
      simpa using this)
    have hz' : 0 < outflow n flow (p ++ [w]) := by
      have := hZ ⟨1, by simp⟩
      simpa using this
    set P : ℝ := ∏ t : Fin (w' :: c).length, flow (p ++ [w] ++ (w' :: c).take t) (w' :: c)[t] / outflow n flow (p ++ [w] ++ (w' :: c).take t) with hP
    have hprod : (∏ t : Fin (w :: w' :: c).length, flow (p ++ (w :: w' :: c).take t) (w :: w' :: c)[t] / outflow n flow (p ++ (w :: w' :: c).take t)) =
        flow p w / outflow n flow p * P := by
      refine (Fin.prod_univ_succ (n := (w' :: c).length) _).trans ?_
      simp [hP]
    have hsum : (∑ t : Fin (w :: w' :: c).length, |flow (p ++ (w :: w' :: c).take t) (w :: w' :: c)[t] -
          if t + 1 = (w :: w' :: c).length then R else outflow n flow (p ++ (w :: w' :: c).take (t + 1))|) =
        |flow p w - outflow n flow (p ++ [w])| + ∑ t : Fin (w' :: c).length, |flow (p ++ [w] ++ (w' :: c).take t) (w' :: c)[t] -
          if t + 1 = (w' :: c).length then R else outflow n flow (p ++ [w] ++ (w' :: c).take (t + 1))| := by
      refine (Fin.sum_univ_succ (n := (w' :: c).length) _).trans ?_
      simp
    have hP0 : 0 ≤ P := Finset.prod_nonneg fun t _ => div_nonneg (hgood.nonneg _ _) (by
      have := (hZ t.succ).le; simpa using this)
    have hP1 : P ≤ 1 := Finset.prod_le_one (fun t _ => div_nonneg (hgood.nonneg _ _) (by have := (hZ t.succ).le; simpa using this)) fun t _ =>
      div_le_one_of_le₀ (le_outflow hgood _ (hc _ (List.mem_cons_of_mem _ (List.getElem_mem _)))) (by have := (hZ t.succ).le; simpa using this)
    rw [hprod, hsum, ← mul_assoc, mul_div_cancel₀ _ hz.ne']
    calc |flow p w * P - R| = |(flow p w - outflow n flow (p ++ [w])) * P + (outflow n flow (p ++ [w]) * P - R)| := by congr 1; ring
      _ ≤ |(flow p w - outflow n flow (p ++ [w])) * P| + |outflow n flow (p ++ [w]) * P - R| := abs_add_le _ _
      _ ≤ _ := add_le_add (by rw [abs_mul, abs_of_nonneg hP0]; exact mul_le_of_le_one_right (abs_nonneg _) hP1) ih

/-- **C135.** The flow that enters the graph, times the probability of a candidate, differs from the reward at its end by at most the square root of the order
times the violation of flow consistency along the candidate: for all flows. So as the latter vanishes, probabilities become proportional to the
rewards that the loss uses. -/
theorem C135_consistency (n : ℕ) (flow : List ℕ → ℕ → ℝ) (hgood : GoodFlows flow) (R : ℝ) (c : List ℕ) (hne : c ≠ []) (hc : ∀ i ∈ c, i < n)
    (hno : 2 ≤ n ∨ c.length ≤ 1) :
    |outflow n flow [] * probability n flow c - R| ≤ Real.sqrt (c.length * inconsistency n flow R c) := by
  have hZ : ∀ i : Fin c.length, 0 < outflow n flow ([] ++ c.take i) := fun i => by
    have hi := i.isLt
    refine outflow_pos hgood _ (by have := hc c[i] (List.getElem_mem _); omega) (hno.imp id fun h => ?_)
    rw [show (i : ℕ) = 0 by omega, List.take_zero]; rfl
  refine (telescope hgood R c [] hne hc hZ).trans (Real.le_sqrt_of_sq_le ?_)
  have := sq_sum_le_card_mul_sum_sq (s := (Finset.univ : Finset (Fin c.length)))
    (f := fun t => |flow (c.take t) c[t] - if t + 1 = c.length then R else outflow n flow (c.take (t + 1))|)
  simpa only [List.nil_append, sq_abs, Finset.card_univ, Fintype.card_fin, inconsistency] using this

/-- **C135.** A candidate without reward always has a positive violation: the loss cannot vanish on a scene where invalid candidates are sampled. -/
theorem C135_never_zero (n : ℕ) (flow : List ℕ → ℕ → ℝ) (hgood : GoodFlows flow) (c : List ℕ) (hne : c ≠ []) (hc : IsCandidate n (c.map fun (i : ℕ) => (i : ℤ))) :
    0 < inconsistency n flow 0 c := by
  have hl := List.length_pos_iff.mpr hne
  have hlast : c.length - 1 < c.length := by omega
  refine lt_of_lt_of_le ?_ (Finset.single_le_sum (fun t _ => sq_nonneg _) (Finset.mem_univ (⟨c.length - 1, hlast⟩ : Fin c.length)))
  simp only [show c.length - 1 + 1 = c.length by omega, if_true, sub_zero]
  refine pow_pos (goodFlows_pos hgood fun hg => ?_) 2
  obtain ⟨j, hj⟩ | h0 : (∃ j, c.length - 1 = j + 1) ∨ c.length - 1 = 0 := by
    rcases Nat.eq_zero_or_pos (c.length - 1) with h | h
    · exact .inr h
    · exact .inl ⟨c.length - 2, by omega⟩
  · have hj' : j < c.length := by omega
    have ht : (c.take (c.length - 1)).getLast? = some c[j] := by rw [hj, List.take_add_one, List.getElem?_eq_getElem hj', Option.toList_some]; exact getLast_append _ _
    have hg' : c[j] = c[c.length - 1] := Option.some.inj (ht.symm.trans hg)
    refine hc.2 j c[j] c[c.length - 1] ?_ ?_ (by exact_mod_cast hg')
    · simp [List.getElem?_eq_getElem hj']
    · rw [← hj]; simp
  · rw [show (c.take (c.length - 1)) = [] by rw [h0]; rfl] at hg
    simp at hg

/-! ## The program -/

theorem visited_eq_sorted (n : ℕ) (c : List ℕ) (hc : ∀ i ∈ c, i < n) : visited n c = sorted c := by
  refine List.Perm.eq_of_pairwise (le := (· ≤ ·)) (fun a b _ _ h1 h2 => le_antisymm h1 h2) (visited_sorted n c) ?_ ((visited_perm n c hc).trans (List.mergeSort_perm _ _).symm)
  have := List.pairwise_mergeSort (le := fun a b : ℕ => decide (a ≤ b)) (by simp; omega) (by simp; omega) c
  simpa [sorted] using this

/-- The violations along a candidate that continues `p`. -/
noncomputable def violations (n : ℕ) (flow : List ℕ → ℕ → ℝ) (R : ℝ) (p c : List ℕ) : ℝ :=
  ∑ t : Fin c.length, (flow (p ++ c.take t) c[t] - if t + 1 = c.length then R else outflow n flow (p ++ c.take (t + 1))) ^ 2

theorem takeFill_flow (n : ℕ) (f : ℕ → F) (w : ℕ) (hw : w < n) : takeFill ((List.range n).map f) F.nan (w : ℕ) = f w := by
  simp only [takeFill, List.getD_eq_getElem?_getD]
  rw [if_neg (by omega), if_neg (by omega), Int.toNat_natCast, List.getElem?_map, List.getElem?_range hw]
  rfl

theorem lossScan_step {Key : Type} (E : Env) (J : Jax Key) {net : FlowModel} {n order : ℕ} {xys : List (V2 F)} {flow : List ℕ → ℕ → ℝ} (hF : FlowsOf net n order xys flow)
    (scene : Scene) (p : List ℕ) (hp : ∀ i ∈ p, i < n) (hpl : p.length < order) (k : Key) (rest : List (Key × ℕ)) (w : ℕ) (hw : w < n)
    (hk : J.categorical k (nextLogits n flow p) = w) (r : F) (hr : reward E ((encode n order (p ++ [w])).nonzeroRows order n) scene = .ok r)
    (R m : ℝ) (hR : p.length + 1 = order → r = F.fin R) :
    lossScan E J net xys scene n order ((k, p.length) :: rest) (F.fin m) ((List.range n).map fun i => F.fin (flow p i)) (encode n order p) = (do
      let others ← lossScan E J net xys scene n order rest (F.fin (m + (flow p w - if p.length + 1 = order then R else outflow n flow (p ++ [w])) ^ 2))
        ((List.range n).map fun i => F.fin (flow (p ++ [w]) i)) (encode n order (p ++ [w]))
      pure (others.1, (w : ℤ) :: others.2)) := by
  have hc := hF (p ++ [w]) (by simp only [List.mem_append, List.mem_singleton]; rintro i (h | rfl); exacts [hp i h, hw]) (by simp; omega)
  rw [getLast_append, Option.getD_some] at hc
  have hm : F.fin m + F.where_ ((p.length : ℤ) == (order : ℤ) - 1) ((F.fin (flow p w) - r) * (F.fin (flow p w) - r))
      ((F.fin (flow p w) - F.fin (outflow n flow (p ++ [w]))) * (F.fin (flow p w) - F.fin (outflow n flow (p ++ [w])))) =
      F.fin (m + (flow p w - if p.length + 1 = order then R else outflow n flow (p ++ [w])) ^ 2) := by
    by_cases he : p.length + 1 = order
    · have : ((p.length : ℤ) == (order : ℤ) - 1) = true := by rw [beq_iff_eq]; omega
      rw [this, if_pos he, hR he]
      simp only [F.where_, if_true, F.fin_sub, F.fin_mul, F.fin_add]
      congr 2; ring
    · have : ((p.length : ℤ) == (order : ℤ) - 1) = false := by rw [beq_eq_false_iff_ne]; omega
      rw [this, if_neg he]
      simp only [F.where_, Bool.false_eq_true, if_false, F.fin_sub, F.fin_mul, F.fin_add]
      congr 2; ring
  rw [← flow_sum] at hm
  rw [← hm]
  simp only [lossScan, chooseWall_eq, hk, encode_set, hc, hr, takeFill_flow n _ w hw]
  rfl

theorem lossScan_eq {Key : Type} (E : Env) (J : Jax Key) {net : FlowModel} {n order : ℕ} {xys : List (V2 F)} {flow : List ℕ → ℕ → ℝ} (hF : FlowsOf net n order xys flow)
    (scene : Scene) (R : List ℕ → ℝ) (hR : ∀ q : List ℕ, (∀ i ∈ q, i < n) → q.length ≤ order →
      ∃ r, reward E ((encode n order q).nonzeroRows order n) scene = .ok r ∧ (q.length = order → r = F.fin (R q))) :
    ∀ (c p : List ℕ) (ks : List Key) (m : ℝ), (∀ i ∈ p, i < n) → (∀ i ∈ c, i < n) → p.length + c.length = order → ks.length = c.length →
      (∀ (i : ℕ) (hi : i < c.length), ∃ k, ks[i]? = some k ∧ J.categorical k (nextLogits n flow (p ++ c.take i)) = c[i]) →
      lossScan E J net xys scene n order (ks.zip (List.range' p.length c.length)) (F.fin m) ((List.range n).map fun i => F.fin (flow p i)) (encode n order p) =
        .ok (F.fin (m + violations n flow (R (p ++ c)) p c), c.map fun (i : ℕ) => (i : ℤ))
  | [], p, ks, m, hp, hc, hl, hk, _ => by
    have : ks = [] := List.length_eq_zero_iff.mp (by simpa using hk)
    simp [this, lossScan, violations]
  | w :: c, p, [], _, hp, hc, hl, hk, _ => by simp at hk
  | w :: c, p, k :: ks, m, hp, hc, hl, hk, hd => by
    have hlt : p.length < order := by simp at hl; omega
    have hw : w < n := hc w (by simp)
    have hpw : ∀ i ∈ p ++ [w], i < n := by simp only [List.mem_append, List.mem_singleton]; rintro i (h | rfl); exacts [hp i h, hw]
    obtain ⟨k', e1, hk0⟩ := hd 0 (by simp)
    obtain rfl : k = k' := by simpa using e1
    obtain ⟨r, hr, hr'⟩ := hR (p ++ [w]) hpw (by simp; omega)
    have hz : (k :: ks).zip (List.range' p.length (w :: c).length) = (k, p.length) :: ks.zip (List.range' (p ++ [w]).length c.length) := by
      simp [List.range'_succ]
    have ih := lossScan_eq E J hF scene R hR c (p ++ [w]) ks (m + (flow p w - if p.length + 1 = order then R (p ++ [w]) else outflow n flow (p ++ [w])) ^ 2) hpw
      (fun i hi => hc i (by simp [hi])) (by simp at hl ⊢; omega) (by simpa using hk) fun i hi => by
        obtain ⟨k', e1, e2⟩ := hd (i + 1) (by simpa using hi)
        exact ⟨k', by simpa using e1, by simpa using e2⟩
    rw [hz, lossScan_step E J hF scene p hp hlt k _ w hw (by simpa using hk0) r hr (R (p ++ [w])) m (fun h => hr' (by simpa using h)), ih]
    simp only [bind, Except.bind, pure, Except.pure, List.map_cons]
    congr 2
    rw [show violations n flow (R (p ++ w :: c)) p (w :: c) = (flow p w - if c = [] then R (p ++ w :: c) else outflow n flow (p ++ [w])) ^ 2 +
        violations n flow (R (p ++ w :: c)) (p ++ [w]) c from by
      unfold violations
      refine (Fin.sum_univ_succ (n := c.length) _).trans ?_
      simp [eq_comm]]
    have hcl : p.length + 1 = order ↔ c = [] := by
      rw [← List.length_eq_zero_iff]; simp at hl; omega
    by_cases h0 : c = []
    · subst h0; simp [hcl.mpr rfl, violations]
    · rw [if_neg (fun h => h0 (hcl.mp h)), if_neg h0]
      simp only [List.append_assoc, List.singleton_append]
      congr 1; ring

theorem sampleRows_map (tx rx : Pt) (walls : List (Pt × Pt)) :
    sampleRows tx rx walls = (tx :: rx :: walls.flatMap fun w => [w.1, w.2]).map V2.fin := by
  simp [sampleRows, List.map_flatMap]

theorem sampleRows_len (tx rx : Pt) (walls : List (Pt × Pt)) : (tx :: rx :: walls.flatMap fun w => [w.1, w.2]).length = 2 + walls.length * 2 := by
  have : ∀ l : List (Pt × Pt), (l.flatMap fun w => [w.1, w.2]).length = l.length * 2 := by
    intro l
    induction l with
    | nil => rfl
    | cons w l ih => simp only [List.flatMap_cons, List.length_append, ih, List.length_cons, List.length_nil]; omega
  simp only [List.length_cons, this]; omega

/-- The reward that the loss computes for a state, complete or not, in hard mode. -/
theorem state_reward (E : Env) (hE : E.enableApprox = false) (t r : Pt) (htr : t ≠ r) (walls : List (Pt × Pt)) (hne : walls ≠ []) (hnd : ∀ w ∈ walls, w.1 ≠ w.2)
    (order : ℕ) (q : List ℕ) (hq : ∀ i ∈ q, i < walls.length) (hl : q.length ≤ order) :
    ∃ x, reward E ((encode walls.length order q).nonzeroRows order walls.length) (oneLink t r walls) = .ok x ∧
      (q.length = order → x = F.fin (rayReward walls t r (sorted q))) := by
  rw [nonzeroRows_encode _ order q hq hl, visited_eq_sorted _ q hq]
  by_cases h : q.length = order
  · refine ⟨_, C132_hard E hE t r htr walls hne hnd _ ?_, fun _ => ?_⟩
    · intro i hi
      rw [h, Nat.sub_self, List.replicate_zero, List.append_nil] at hi
      obtain ⟨j, hj, rfl⟩ := List.mem_map.mp hi
      have := hq j ((List.mergeSort_perm _ _).mem_iff.mp hj)
      omega
    · rw [h, Nat.sub_self, List.replicate_zero, List.append_nil, rayReward]
      split_ifs <;> simp
  · refine ⟨0, C132_filler E hE t r walls hne _ (walls.length : ℤ) ?_ (.inl le_rfl), fun h' => absurd h' h⟩
    simp only [List.mem_append, List.mem_replicate]
    exact .inr ⟨by omega, trivial⟩

/-- **C135.** What the loss measures. In hard mode, for every scene (walls of non-zero length, transmitter and receiver at different places), key and order: the
loss samples the same candidate as the model does with this key, and returns the violations of flow consistency along it, but *with the reward of the
candidate sorted by wall indices*. -/
theorem C135_loss {Key : Type} (E : Env) (hE : E.enableApprox = false) (J : Jax Key) (hJ : SupportContract J) (net : FlowModel)
    (t r : Pt) (htr : t ≠ r) (walls : List (Pt × Pt)) (hne : walls ≠ []) (hnd : ∀ w ∈ walls, w.1 ≠ w.2) (order : ℕ) (hno : 2 ≤ walls.length ∨ order ≤ 1)
    (flow : List ℕ → ℕ → ℝ) (hF : FlowsOf net walls.length order (sampleRows t r walls) flow) (hgood : GoodFlows flow) (key : Key) :
    ∃ c : List ℕ, c.length = order ∧ (∀ i ∈ c, i < walls.length) ∧ sampleCandidate J net (sampleRows t r walls) order key = .ok (c.map fun (i : ℕ) => (i : ℤ)) ∧
      lossOne E J net (sampleRows t r walls) (oneLink t r walls) order key =
        .ok (F.fin (inconsistency walls.length flow (rayReward walls t r (sorted c)) c), c.map fun (i : ℕ) => (i : ℤ)) := by
  have hpos := List.length_pos_iff.mpr hne
  obtain ⟨c, hcl, hc, hd, -⟩ := draws_exist hJ hgood hpos (J.split key order) [] (by rw [hJ.split]; exact hno.imp id fun h => .inl ⟨rfl, h⟩)
  rw [hJ.split] at hcl
  refine ⟨c, hcl, hc, ?_, ?_⟩
  · rw [sampleRows_map] at hF ⊢
    exact (sampleCandidate_iff J (sampleRows_len t r walls) hF key (hJ.split _ _) c hc hcl).mpr (by simpa using hd)
  · have h := lossScan_eq E J hF (oneLink t r walls) (fun q => rayReward walls t r (sorted q)) (state_reward E hE t r htr walls hne hnd order) c [] (J.split key order) 0
      (by simp) hc (by simpa using hcl) (by rw [hJ.split, hcl]) (by simpa using hd)
    have h0 := hF [] (by simp) (by simp)
    have hnw : ((sampleRows t r walls).length - 2) / 2 = walls.length := by rw [sampleRows_map, List.length_map, sampleRows_len]; omega
    simp only [List.getLast?_nil, Option.getD_none, ← zeros_encode] at h0
    simp only [List.length_nil, hcl, ← zeros_encode, zero_add] at h
    simp only [lossOne, hnw, h0]
    rw [List.range_eq_range' (n := order), F.zero_eq]
    exact h

/-- **C135.** The loss of a batch is the sum over its candidates; it is never negative. -/
theorem C135_batch {Key : Type} (E : Env) (hE : E.enableApprox = false) (J : Jax Key) (hJ : SupportContract J) (net : FlowModel)
    (t r : Pt) (htr : t ≠ r) (walls : List (Pt × Pt)) (hne : walls ≠ []) (hnd : ∀ w ∈ walls, w.1 ≠ w.2) (order : ℕ) (hno : 2 ≤ walls.length ∨ order ≤ 1)
    (flow : List ℕ → ℕ → ℝ) (hF : FlowsOf net walls.length order (sampleRows t r walls) flow) (hgood : GoodFlows flow) (batchSize : ℕ) (key : Key) :
    ∃ cs : List (List ℕ), cs.length = batchSize ∧
      (J.split key batchSize).mapM (sampleCandidate J net (sampleRows t r walls) order) = .ok (cs.map fun c => c.map fun (i : ℕ) => (i : ℤ)) ∧
      flowLoss E J net (sampleRows t r walls) batchSize order key =
        .ok (F.fin (cs.map fun c => inconsistency walls.length flow (rayReward walls t r (sorted c)) c).sum, cs.map fun c => c.map fun (i : ℕ) => (i : ℤ)) ∧
      0 ≤ (cs.map fun c => inconsistency walls.length flow (rayReward walls t r (sorted c)) c).sum := by
  choose f h1 h2 h3 h4 using C135_loss E hE J hJ net t r htr walls hne hnd order hno flow hF hgood
  refine ⟨(J.split key batchSize).map f, by simp [hJ.split], ?_, ?_, ?_⟩
  · rw [mapM_ok _ _ _ fun k _ => h3 k, List.map_map]; rfl
  · have hs : ∀ (l : List ℝ) (a : ℝ) , (l.map F.fin).foldl (· + ·) (F.fin a) = F.fin (a + l.sum) := by
      intro l
      induction l with
      | nil => intro a; simp
      | cons x l ih => intro a; simp [ih, add_assoc]
    simp only [flowLoss, C131_scene, bind, Except.bind, mapM_ok _ _ _ fun k _ => h4 k, pure, Except.pure, List.map_map]
    congr 2
    have := hs ((J.split key batchSize).map fun k => inconsistency walls.length flow (rayReward walls t r (sorted (f k))) (f k)) 0
    rw [zero_add] at this
    rw [F.zero_eq, List.foldl_map]
    rw [List.foldl_map, List.foldl_map] at this
    exact this
  · refine List.sum_nonneg fun x hx => ?_
    obtain ⟨c, -, rfl⟩ := List.mem_map.mp hx
    exact Finset.sum_nonneg fun _ _ => sq_nonneg _

/-! ## Are the probabilities proportional to the rewards? -/

/-- **C135, order 1.** The central property that the notebook announces holds for first-order paths: up to the square root of the loss of the candidate, its
probability times the total flow is its reward. -/
theorem C135_first_order (walls : List (Pt × Pt)) (t r : Pt) (flow : List ℕ → ℕ → ℝ) (hgood : GoodFlows flow) (i : ℕ) (hi : i < walls.length) :
    |outflow walls.length flow [] * probability walls.length flow [i] - rayReward walls t r [i]| ≤
      Real.sqrt (inconsistency walls.length flow (rayReward walls t r (sorted [i])) [i]) := by
  have := C135_consistency walls.length flow hgood (rayReward walls t r (sorted [i])) [i] (by simp) (by simpa using hi) (by simp)
  simpa [sorted] using this

/-- **C135, higher orders.** If the walls of a candidate, in the order of their indices, have another reward than the candidate itself, then training does not lead to the
announced property: the smaller the loss along the candidate, the further from its reward its probability (times the total flow) is. -/
theorem C135_unsorted (walls : List (Pt × Pt)) (t r : Pt) (flow : List ℕ → ℕ → ℝ) (hgood : GoodFlows flow) (c : List ℕ) (hne : c ≠ []) (hc : ∀ i ∈ c, i < walls.length)
    (hn : 2 ≤ walls.length) (hR : rayReward walls t r (sorted c) ≠ rayReward walls t r c) :
    1 - Real.sqrt (c.length * inconsistency walls.length flow (rayReward walls t r (sorted c)) c) ≤
      |outflow walls.length flow [] * probability walls.length flow c - rayReward walls t r c| := by
  have h := C135_consistency walls.length flow hgood (rayReward walls t r (sorted c)) c hne hc (.inl hn)
  have h1 : |rayReward walls t r (sorted c) - rayReward walls t r c| = 1 := by
    unfold rayReward at hR ⊢
    split_ifs at hR ⊢ <;> simp_all
  have := abs_sub_le (rayReward walls t r (sorted c)) (outflow walls.length flow [] * probability walls.length flow c) (rayReward walls t r c)
  rw [h1, abs_sub_comm (rayReward walls t r (sorted c))] at this
  linarith

/-! ## A corner -/

/-- The two walls of a corner. -/
def cornerV : Pt × Pt := (⟨0, 0⟩, ⟨0, 4⟩)
def cornerH : Pt × Pt := (⟨0, 0⟩, ⟨4, 0⟩)

theorem corner_ne : cornerV.1 ≠ cornerV.2 ∧ cornerH.1 ≠ cornerH.2 := by
  constructor <;> intro h
  · have := congrArg V2.y h; norm_num [cornerV] at this
  · have := congrArg V2.x h; norm_num [cornerH] at this

/-- The path that is reflected by the vertical wall, then by the horizontal one, whatever their indices. -/
theorem corner_path (walls : List (Pt × Pt)) (a b : ℕ) (ha : walls[a]? = some cornerV) (hb : walls[b]? = some cornerH)
    (hall : ∀ (j : ℕ) (w : Pt × Pt), walls[j]? = some w → j = a ∨ j = b) :
    RayPath walls 0 ⟨1, 2⟩ ⟨2, 1⟩ [(a : ℤ), (b : ℤ)] [⟨1, 2⟩, ⟨0, 1⟩, ⟨1, 0⟩, ⟨2, 1⟩] := by
  have e2 : ∀ x y : ℝ, x ^ 2 = 1 → y ^ 2 = 1 → Real.sqrt (x ^ 2 + y ^ 2) = Real.sqrt 2 := fun x y hx hy => by rw [hx, hy]; norm_num
  refine ⟨rfl, rfl, rfl, ?_, ?_⟩
  · intro i j w p q q' hi hj hp hq hq'
    match i with
    | 0 =>
      simp at hi hp hq hq'
      have : a = j := by omega
      subst this hp hq hq'
      obtain rfl : w = cornerV := Option.some.inj (hj.symm.trans ha)
      refine ⟨⟨⟨1 / 4, by ext <;> norm_num [pointAt, cornerV]⟩, by norm_num [side, cornerV], ?_⟩, ⟨1 / 4, by norm_num, by norm_num, by ext <;> norm_num [pointAt, cornerV]⟩⟩
      simp only [along, eucl, cornerV]
      rw [e2 _ _ (by norm_num) (by norm_num), e2 _ _ (by norm_num) (by norm_num)]
      norm_num
    | 1 =>
      simp at hi hp hq hq'
      have : b = j := by omega
      subst this hp hq hq'
      obtain rfl : w = cornerH := Option.some.inj (hj.symm.trans hb)
      refine ⟨⟨⟨1 / 4, by ext <;> norm_num [pointAt, cornerH]⟩, by norm_num [side, cornerH], ?_⟩, ⟨1 / 4, by norm_num, by norm_num, by ext <;> norm_num [pointAt, cornerH]⟩⟩
      simp only [along, eucl, cornerH]
      rw [e2 _ _ (by norm_num) (by norm_num), e2 _ _ (by norm_num) (by norm_num)]
      norm_num
    | i + 2 => simp at hi
  · intro i j w p q hp hq hj hadj
    rcases hall j w hj with rfl | rfl
    · obtain rfl : w = cornerV := Option.some.inj (hj.symm.trans ha)
      match i with
      | 0 => exact absurd (.inl rfl) hadj
      | 1 => exact absurd (.inr ⟨0, rfl, rfl⟩) hadj
      | 2 =>
        simp at hp hq
        subst hp hq
        rintro ⟨-, s, u, he, -, h1, h2⟩
        have hx := congrArg V2.x he
        simp only [pointAt, cornerV] at hx
        linarith
      | i + 3 => simp at hq
    · obtain rfl : w = cornerH := Option.some.inj (hj.symm.trans hb)
      match i with
      | 0 =>
        simp at hp hq
        subst hp hq
        rintro ⟨-, s, u, he, -, h1, h2⟩
        have hy := congrArg V2.y he
        simp only [pointAt, cornerH] at hy
        linarith
      | 1 => exact absurd (.inl rfl) hadj
      | 2 => exact absurd (.inr ⟨1, rfl, rfl⟩) hadj
      | i + 3 => simp at hq

theorem corner_algebra (x y : ℝ) (x0 : 0 < x) (y0 : 0 < y) (l1 : (1 - x) * Real.sqrt (x ^ 2 + y ^ 2) = x * Real.sqrt ((x - 1) ^ 2 + 4))
    (l2 : y * Real.sqrt (4 + (1 - y) ^ 2) = (1 - y) * Real.sqrt (x ^ 2 + y ^ 2)) : False := by
  have hD : 0 < Real.sqrt (x ^ 2 + y ^ 2) := Real.sqrt_pos.mpr (by positivity)
  have hA : 0 < Real.sqrt ((x - 1) ^ 2 + 4) := Real.sqrt_pos.mpr (by positivity)
  have hB : 0 < Real.sqrt (4 + (1 - y) ^ 2) := Real.sqrt_pos.mpr (by positivity)
  have x1 : 0 < 1 - x := by
    by_contra h
    have := mul_nonpos_of_nonpos_of_nonneg (not_lt.mp h) hD.le
    have := mul_pos x0 hA
    linarith
  have y1 : 0 < 1 - y := by
    by_contra h
    have := mul_nonpos_of_nonpos_of_nonneg (not_lt.mp h) hD.le
    have := mul_pos y0 hB
    linarith
  have q1 : (1 - x) ^ 2 * (x ^ 2 + y ^ 2) = x ^ 2 * ((x - 1) ^ 2 + 4) := by
    have := congrArg (· ^ 2) l1
    simpa only [mul_pow, Real.sq_sqrt (show 0 ≤ x ^ 2 + y ^ 2 by positivity), Real.sq_sqrt (show 0 ≤ (x - 1) ^ 2 + 4 by positivity)] using this
  have q2 : y ^ 2 * (4 + (1 - y) ^ 2) = (1 - y) ^ 2 * (x ^ 2 + y ^ 2) := by
    have := congrArg (· ^ 2) l2
    simpa only [mul_pow, Real.sq_sqrt (show 0 ≤ x ^ 2 + y ^ 2 by positivity), Real.sq_sqrt (show 0 ≤ 4 + (1 - y) ^ 2 by positivity)] using this
  have r1 : (1 - x) * y = 2 * x := (sq_eq_sq₀ (by positivity) (by positivity)).mp (by linarith)
  have r2 : 2 * y = (1 - y) * x := (sq_eq_sq₀ (by positivity) (by positivity)).mp (by linarith)
  linarith [mul_pos x0 y0]

/-- The converse order has no path. -/
theorem corner_no_path (walls : List (Pt × Pt)) (a b : ℕ) (ha : walls[a]? = some cornerV) (hb : walls[b]? = some cornerH) (pts : List Pt) :
    ¬ RayPath walls 0 ⟨1, 2⟩ ⟨2, 1⟩ [(b : ℤ), (a : ℤ)] pts := by
  rintro ⟨hs, hf, hn, hr, -⟩
  match pts, hn with
  | [p0, p, q, p3], _ =>
    simp at hs hf
    subst hs hf
    obtain ⟨⟨-, s1, l1⟩, u, hu0, hu1, hp⟩ := hr 0 b cornerH ⟨1, 2⟩ p q rfl hb rfl rfl rfl
    obtain ⟨⟨-, s2, l2⟩, v, hv0, hv1, hq⟩ := hr 1 a cornerV p q ⟨2, 1⟩ rfl ha rfl rfl rfl
    subst hp hq
    simp only [side, along, eucl, pointAt, cornerH, cornerV] at s1 l1 s2 l2
    norm_num at s1 l1 s2 l2
    obtain ⟨x, hx⟩ : ∃ x, x = u * 4 := ⟨_, rfl⟩
    obtain ⟨y, hy⟩ : ∃ y, y = v * 4 := ⟨_, rfl⟩
    rw [← hx, ← hy] at l1 l2
    have x0 : 0 < x := by linarith
    have y0 : 0 < y := by linarith
    exact corner_algebra x y x0 y0 (by linarith) (by linarith)

theorem sorted_swap : sorted [1, 0] = [0, 1] := by
  simp [sorted, List.mergeSort, List.MergeSort.Internal.splitInTwo]

/-- The vertical wall is the first one: the candidate [0, 1] has a path, [1, 0] has none. -/
theorem corner_rewards : rayReward [cornerV, cornerH] ⟨1, 2⟩ ⟨2, 1⟩ [0, 1] = 1 ∧ rayReward [cornerV, cornerH] ⟨1, 2⟩ ⟨2, 1⟩ [1, 0] = 0 := by
  refine ⟨if_pos ⟨_, corner_path [cornerV, cornerH] 0 1 rfl rfl ?_⟩, if_neg fun ⟨pts, h⟩ => corner_no_path [cornerV, cornerH] 0 1 rfl rfl pts h⟩
  intro j w hj
  rcases j with _ | _ | j
  · exact .inl rfl
  · exact .inr rfl
  · simp at hj

/-- The walls are listed the other way round: the candidate [1, 0] has a path, [0, 1] has none. -/
theorem corner_rewards' : rayReward [cornerH, cornerV] ⟨1, 2⟩ ⟨2, 1⟩ [1, 0] = 1 ∧ rayReward [cornerH, cornerV] ⟨1, 2⟩ ⟨2, 1⟩ [0, 1] = 0 := by
  refine ⟨if_pos ⟨_, corner_path [cornerH, cornerV] 1 0 rfl rfl ?_⟩, if_neg fun ⟨pts, h⟩ => corner_no_path [cornerH, cornerV] 1 0 rfl rfl pts h⟩
  intro j w hj
  rcases j with _ | _ | j
  · exact .inr rfl
  · exact .inl rfl
  · simp at hj

/-- **C135, the central property refuted for order 2**: "after successful training, the model should sample complete path candidates with a probability that is
proportional to their reward". In a corner whose walls are listed as vertical, horizontal, the candidate [1, 0] has no path, and its reward is 0. But for every network, the loss
that is computed when it is sampled, `m`, satisfies |Z p − 1| ≤ √(2 m), where `p` is its probability and `Z` the total flow: training drives its probability to that of the
valid candidate. -/
theorem C135_proportional_refuted {Key : Type} (E : Env) (hE : E.enableApprox = false) (J : Jax Key) (hJ : SupportContract J) (net : FlowModel) (hnet : FiniteNet net) :
    ∃ flow, FlowsOf net 2 2 (sampleRows ⟨1, 2⟩ ⟨2, 1⟩ [cornerV, cornerH]) flow ∧ GoodFlows flow ∧
      reward E [0, 1] (oneLink ⟨1, 2⟩ ⟨2, 1⟩ [cornerV, cornerH]) = .ok 1 ∧ reward E [1, 0] (oneLink ⟨1, 2⟩ ⟨2, 1⟩ [cornerV, cornerH]) = .ok 0 ∧
      ∀ key, sampleCandidate J net (sampleRows ⟨1, 2⟩ ⟨2, 1⟩ [cornerV, cornerH]) 2 key = .ok [1, 0] →
        ∃ m, lossOne E J net (sampleRows ⟨1, 2⟩ ⟨2, 1⟩ [cornerV, cornerH]) (oneLink ⟨1, 2⟩ ⟨2, 1⟩ [cornerV, cornerH]) 2 key = .ok (F.fin m, [1, 0]) ∧
          |outflow 2 flow [] * probability 2 flow [1, 0] - 1| ≤ Real.sqrt (2 * m) := by
  have htr : (⟨1, 2⟩ : Pt) ≠ ⟨2, 1⟩ := fun h => by have := congrArg V2.x h; norm_num at this
  have hnd : ∀ w ∈ [cornerV, cornerH], w.1 ≠ w.2 := by simpa using corner_ne
  obtain ⟨flow, hF, h1, h2⟩ := C134_flows net hnet 2 2 (by norm_num) _ (sampleRows_len ⟨1, 2⟩ ⟨2, 1⟩ [cornerV, cornerH])
  rw [← sampleRows_map] at hF
  obtain ⟨r1, r2⟩ := corner_rewards
  refine ⟨flow, hF, ⟨h1, h2⟩, ?_, ?_, fun key hk => ?_⟩
  · rw [C132_hard E hE _ _ htr _ (by simp) hnd _ (by simp [InBounds])]
    refine congrArg _ (if_pos ?_)
    by_contra h
    have r0 : rayReward [cornerV, cornerH] ⟨1, 2⟩ ⟨2, 1⟩ [0, 1] = 0 := if_neg h
    rw [r0] at r1
    norm_num at r1
  · rw [C132_hard E hE _ _ htr _ (by simp) hnd _ (by simp [InBounds])]
    exact congrArg _ (if_neg fun ⟨pts, h⟩ => corner_no_path [cornerV, cornerH] 0 1 rfl rfl pts h)
  · obtain ⟨c, -, -, hs, hl⟩ := C135_loss E hE J hJ net ⟨1, 2⟩ ⟨2, 1⟩ htr [cornerV, cornerH] (by simp) hnd 2 (by simp) flow hF ⟨h1, h2⟩ key
    have hc : c = [1, 0] := by
      have := Except.ok.inj (hs.symm.trans hk)
      match c, this with
      | [a, b], h => simp at h; obtain ⟨h1, h2⟩ := h; norm_cast at h1 h2; rw [h1, h2]
    subst hc
    refine ⟨_, hl, ?_⟩
    have := C135_consistency 2 flow ⟨h1, h2⟩ (rayReward [cornerV, cornerH] ⟨1, 2⟩ ⟨2, 1⟩ (sorted [1, 0])) [1, 0] (by simp) (by simp) (by simp)
    rw [sorted_swap, r1] at this
    rw [sorted_swap, r1]
    simpa using this

/-- **C135, refuted further**: with the walls listed the other way round, the only valid candidate is [1, 0], and training drives its probability (times the total flow) to 0. -/
theorem C135_valid_lost {Key : Type} (E : Env) (hE : E.enableApprox = false) (J : Jax Key) (hJ : SupportContract J) (net : FlowModel) (hnet : FiniteNet net) :
    ∃ flow, FlowsOf net 2 2 (sampleRows ⟨1, 2⟩ ⟨2, 1⟩ [cornerH, cornerV]) flow ∧ GoodFlows flow ∧
      reward E [1, 0] (oneLink ⟨1, 2⟩ ⟨2, 1⟩ [cornerH, cornerV]) = .ok 1 ∧
      ∀ key, sampleCandidate J net (sampleRows ⟨1, 2⟩ ⟨2, 1⟩ [cornerH, cornerV]) 2 key = .ok [1, 0] →
        ∃ m, lossOne E J net (sampleRows ⟨1, 2⟩ ⟨2, 1⟩ [cornerH, cornerV]) (oneLink ⟨1, 2⟩ ⟨2, 1⟩ [cornerH, cornerV]) 2 key = .ok (F.fin m, [1, 0]) ∧
          outflow 2 flow [] * probability 2 flow [1, 0] ≤ Real.sqrt (2 * m) := by
  have htr : (⟨1, 2⟩ : Pt) ≠ ⟨2, 1⟩ := fun h => by have := congrArg V2.x h; norm_num at this
  have hnd : ∀ w ∈ [cornerH, cornerV], w.1 ≠ w.2 := by simpa using corner_ne.symm
  obtain ⟨flow, hF, h1, h2⟩ := C134_flows net hnet 2 2 (by norm_num) _ (sampleRows_len ⟨1, 2⟩ ⟨2, 1⟩ [cornerH, cornerV])
  rw [← sampleRows_map] at hF
  obtain ⟨r1, r2⟩ := corner_rewards'
  refine ⟨flow, hF, ⟨h1, h2⟩, ?_, fun key hk => ?_⟩
  · rw [C132_hard E hE _ _ htr _ (by simp) hnd _ (by simp [InBounds])]
    refine congrArg _ (if_pos ?_)
    by_contra h
    have r0 : rayReward [cornerH, cornerV] ⟨1, 2⟩ ⟨2, 1⟩ [1, 0] = 0 := if_neg h
    rw [r0] at r1
    norm_num at r1
  · obtain ⟨c, -, -, hs, hl⟩ := C135_loss E hE J hJ net ⟨1, 2⟩ ⟨2, 1⟩ htr [cornerH, cornerV] (by simp) hnd 2 (by simp) flow hF ⟨h1, h2⟩ key
    have hc : c = [1, 0] := by
      have := Except.ok.inj (hs.symm.trans hk)
      match c, this with
      | [a, b], h => simp at h; obtain ⟨h1, h2⟩ := h; norm_cast at h1 h2; rw [h1, h2]
    subst hc
    refine ⟨_, hl, ?_⟩
    have := C135_consistency 2 flow ⟨h1, h2⟩ (rayReward [cornerH, cornerV] ⟨1, 2⟩ ⟨2, 1⟩ (sorted [1, 0])) [1, 0] (by simp) (by simp) (by simp)
    rw [sorted_swap, r2] at this
    rw [sorted_swap, r2]
    refine (le_abs_self _).trans ?_
    simpa using this

/-- Non-vacuity: the network and the generator of C134. -/
example := C135_proportional_refuted ⟨false, 0⟩ rfl inversionJax inversionJax_support plainNet plainNet_finite
example := C135_valid_lost ⟨false, 0⟩ rfl inversionJax inversionJax_support plainNet plainNet_finite
example (flow : List ℕ → ℕ → ℝ) (hgood : GoodFlows flow) := C135_unsorted [cornerV, cornerH] ⟨1, 2⟩ ⟨2, 1⟩ flow hgood [1, 0] (by simp) (by simp) (by simp)
  (by rw [sorted_swap, corner_rewards.1, corner_rewards.2]; norm_num)
example (flow : List ℕ → ℕ → ℝ) (hgood : GoodFlows flow) := C135_first_order [(⟨0, 0⟩, ⟨3, 0⟩)] ⟨0, 1⟩ ⟨2, 1⟩ flow hgood 0 (by simp)
example (flow : List ℕ → ℕ → ℝ) (hgood : GoodFlows flow) := C135_never_zero 2 flow hgood [0] (by simp) ⟨by simp, by simp⟩

end DiffeRT2d.Props
