import Verif.Lemmas.SumLengths
import Verif.Spec.Sgd
import Verif.Props.GradPaths

/-! # The steps of a path, in terms of the parameters of its objects -/

namespace DiffeRT2d.Props
open Classical Spec

/-- How the point number `k` of the path depends on the parameter number `i`. -/
noncomputable def acoef (ss : List Shape) : ℕ → ℕ → Pt
  | 0, _ => ⟨0, 0⟩
  | k + 1, i => match ss[k]? with
    | some (.wall o d) => if offset ss k = i then d - o else ⟨0, 0⟩
    | some (.ris o d _) => if offset ss k = i then d - o else ⟨0, 0⟩
    | _ => ⟨0, 0⟩

/-- How the step number `k` depends on the parameter number `i`. -/
noncomputable def bcoef (ss : List Shape) {N : ℕ} (k : ℕ) (i : Fin N) : Pt := acoef ss (k + 1) i - acoef ss k i

/-- The point number `k`. -/
noncomputable def ptNo (ss : List Shape) (tx rx : Pt) {N : ℕ} (v : Fin N → ℝ) (k : ℕ) : Pt := ((ptsAt ss tx rx (List.ofFn v))[k]?).getD ⟨0, 0⟩

/-- The step number `k`, with the guard. -/
noncomputable def stepNo (eps : ℝ) (ss : List Shape) (tx rx : Pt) {N : ℕ} (v : Fin N → ℝ) (k : ℕ) : Pt :=
  ptNo ss tx rx v (k + 1) - ptNo ss tx rx v k + ⟨eps, eps⟩

theorem ptNo_affine (ss : List Shape) (tx rx : Pt) {N : ℕ} (hN : N = (ss.map Shape.count).sum) (v w : Fin N → ℝ) (k : ℕ) :
    (ptNo ss tx rx v k).x - (ptNo ss tx rx w k).x = ∑ i, (v i - w i) * (acoef ss k i).x ∧
    (ptNo ss tx rx v k).y - (ptNo ss tx rx w k).y = ∑ i, (v i - w i) * (acoef ss k i).y := by
  cases k with
  | zero => simp [ptNo, ptsAt_zero, acoef]
  | succ k =>
    rcases lt_or_ge k ss.length with hk | hk
    · obtain ⟨s, hs⟩ : ∃ s, ss[k]? = some s := ⟨_, List.getElem?_eq_getElem hk⟩
      have hp : ∀ v : Fin N → ℝ, ptNo ss tx rx v (k + 1) = point s (((List.ofFn v)[offset ss k]?).getD 0) := fun v => by
        rw [ptNo, ptsAt_succ ss tx rx _ hs]; rfl
      rw [hp, hp]
      have moving : ∀ o d : Pt, (∀ t, point s t = pointAt o d t) → s.count = 1 →
          (∀ i : Fin N, acoef ss (k + 1) i = if offset ss k = i then d - o else ⟨0, 0⟩) → (point s (((List.ofFn v)[offset ss k]?).getD 0)).x - (point s (((List.ofFn w)[offset ss k]?).getD 0)).x = ∑ i, (v i - w i) * (acoef ss (k + 1) i).x ∧
          (point s (((List.ofFn v)[offset ss k]?).getD 0)).y - (point s (((List.ofFn w)[offset ss k]?).getD 0)).y = ∑ i, (v i - w i) * (acoef ss (k + 1) i).y := by
        intro o d hpt hc ha
        have hlt : offset ss k < N := by rw [hN]; exact offset_lt hs hc
        have e : ∀ v : Fin N → ℝ, ((List.ofFn v)[offset ss k]?).getD 0 = v ⟨_, hlt⟩ := fun v => by
          rw [List.getElem?_eq_getElem (by simpa using hlt)]; simp
        rw [e, e, hpt, hpt]
        constructor
        · rw [Finset.sum_eq_single (⟨_, hlt⟩ : Fin N)]
          · rw [ha]; simp [pointAt]; ring
          · intro i _ hi
            rw [ha, if_neg (fun h => hi (Fin.ext h.symm))]; simp
          · simp
        · rw [Finset.sum_eq_single (⟨_, hlt⟩ : Fin N)]
          · rw [ha]; simp [pointAt]; ring
          · intro i _ hi
            rw [ha, if_neg (fun h => hi (Fin.ext h.symm))]; simp
          · simp
      cases s with
      | wall o d => exact moving o d (fun t => rfl) rfl fun i => by simp [acoef, hs]
      | ris o d φ => exact moving o d (fun t => rfl) rfl fun i => by simp [acoef, hs]
      | vertex p => simp [point, acoef, hs]
    · have ha : ∀ i : Fin N, acoef ss (k + 1) i = ⟨0, 0⟩ := fun i => by
        simp [acoef, List.getElem?_eq_none hk]
      have hc : ptNo ss tx rx v (k + 1) = ptNo ss tx rx w (k + 1) := by
        rcases Nat.eq_or_lt_of_le hk with e | e
        · subst e; rw [ptNo, ptNo, ptsAt_last, ptsAt_last]
        · rw [ptNo, ptNo, List.getElem?_eq_none (by rw [ptsAt_length]; omega), List.getElem?_eq_none (by rw [ptsAt_length]; omega)]
      simp [ha, hc]

theorem steps_affine (eps : ℝ) (ss : List Shape) (tx rx : Pt) {N : ℕ} (hN : N = (ss.map Shape.count).sum) :
    SumLengths.Affine (Finset.range (ss.length + 1)) (bcoef ss) (stepNo eps ss tx rx (N := N)) := by
  constructor
  · intro v w k _
    have h1 := (ptNo_affine ss tx rx hN v w (k + 1)).1
    have h2 := (ptNo_affine ss tx rx hN v w k).1
    simp only [stepNo, bcoef, V2.sub_x, V2.add_x, mul_sub, Finset.sum_sub_distrib]
    linarith
  · intro v w k _
    have h1 := (ptNo_affine ss tx rx hN v w (k + 1)).2
    have h2 := (ptNo_affine ss tx rx hN v w k).2
    simp only [stepNo, bcoef, V2.sub_y, V2.add_y, mul_sub, Finset.sum_sub_distrib]
    linarith

theorem plen_sum (eps : ℝ) (l : List Pt) : plen eps l = ∑ k ∈ Finset.range (l.length - 1), nrm ((l[k + 1]?).getD ⟨0, 0⟩ - (l[k]?).getD ⟨0, 0⟩ + ⟨eps, eps⟩) := by
  induction l with
  | nil => simp [plen]
  | cons a l ih =>
    cases l with
    | nil => simp [plen]
    | cons b l =>
      rw [plen, ih]
      simp only [List.length_cons, Nat.add_sub_cancel]
      rw [Finset.sum_range_succ']
      simp only [List.getElem?_cons_succ, List.getElem?_cons_zero, Option.getD_some]
      rw [add_comm]

theorem steps_length (eps : ℝ) (ss : List Shape) (tx rx : Pt) {N : ℕ} (v : Fin N → ℝ) :
    plen eps (ptsAt ss tx rx (List.ofFn v)) = SumLengths.L (Finset.range (ss.length + 1)) (stepNo eps ss tx rx) v := by
  rw [plen_sum, ptsAt_length]; rfl

theorem steps_size (ss : List Shape) {N : ℕ} (hN : N = (ss.map Shape.count).sum) :
    SumLengths.S (Finset.range (ss.length + 1)) (bcoef ss (N := N)) ≤ 2 * (ss.map fun s => extent s ^ 2).sum := by
  -- the squared size of a point
  have hext : ∀ o d : Pt, dp (d - o) (d - o) = eucl o d ^ 2 := fun o d => by
    rw [eucl, Real.sq_sqrt (by positivity)]; simp only [dp, V2.sub_x, V2.sub_y]; ring
  have hz : dp (⟨0, 0⟩ : Pt) ⟨0, 0⟩ = 0 := by simp [dp]
  set c : ℕ → ℝ := fun k => ∑ i : Fin N, dp (acoef ss k i) (acoef ss k i) with hc
  have c0 : c 0 = 0 := by simp [hc, acoef, hz]
  have cl : c (ss.length + 1) = 0 := by simp [hc, acoef, hz]
  have hck : ∀ k s, ss[k]? = some s → c (k + 1) ≤ extent s ^ 2 := by
    intro k s hs
    have mov : ∀ W : Pt, ∑ i : Fin N, dp (if offset ss k = i then W else ⟨0, 0⟩) (if offset ss k = i then W else ⟨0, 0⟩) ≤ dp W W := by
      intro W
      have e : ∀ i : Fin N, dp (if offset ss k = i then W else ⟨0, 0⟩) (if offset ss k = i then W else ⟨0, 0⟩) = if offset ss k = i then dp W W else 0 := fun i => by
        split <;> simp [hz]
      simp only [e]
      by_cases h : offset ss k < N
      · rw [Finset.sum_eq_single (⟨_, h⟩ : Fin N)]
        · simp
        · intro i _ hi; rw [if_neg (fun h => hi (Fin.ext h.symm))]
        · simp
      · rw [Finset.sum_eq_zero]
        · exact SumLengths.sq_nn W
        · intro i _; rw [if_neg]; have := i.2; omega
    cases s with
    | wall o d => simp only [hc, acoef, hs, extent, ← hext]; exact mov _
    | ris o d φ => simp only [hc, acoef, hs, extent, ← hext]; exact mov _
    | vertex p => simp [hc, acoef, hs, extent, hz]
  -- consecutive points do not share parameters
  have hb : ∀ k (i : Fin N), dp (bcoef ss k i) (bcoef ss k i) = dp (acoef ss (k + 1) i) (acoef ss (k + 1) i) + dp (acoef ss k i) (acoef ss k i) := by
    intro k i
    have h0 : acoef ss (k + 1) i = ⟨0, 0⟩ ∨ acoef ss k i = ⟨0, 0⟩ := by
      cases k with
      | zero => right; rfl
      | succ k =>
        by_contra hne
        push Not at hne
        obtain ⟨h1, h2⟩ := hne
        have own : ∀ k, acoef ss (k + 1) i ≠ ⟨0, 0⟩ → ∃ s, ss[k]? = some s ∧ s.count = 1 ∧ offset ss k = i := by
          intro k h
          simp only [acoef] at h
          split at h
          · rename_i o d e; split at h
            · exact ⟨_, e, rfl, by assumption⟩
            · simp at h
          · rename_i o d φ e; split at h
            · exact ⟨_, e, rfl, by assumption⟩
            · simp at h
          · simp at h
        obtain ⟨s1, -, -, e1⟩ := own _ h1
        obtain ⟨s2, g2, f2, e2⟩ := own _ h2
        have : offset ss (k + 1) = offset ss k + 1 := by
          have hk := (List.getElem?_eq_some_iff.mp g2)
          obtain ⟨hk1, hk2⟩ := hk
          simp [offset, List.take_add_one, g2, f2]
        omega
    rcases h0 with h0 | h0
    · simp only [bcoef, h0, hz, zero_add]; simp [dp]
    · simp only [bcoef, h0, hz, add_zero]; simp [dp]
  have e : SumLengths.S (Finset.range (ss.length + 1)) (bcoef ss (N := N)) = ∑ k ∈ Finset.range (ss.length + 1), (c (k + 1) + c k) := by
    simp only [SumLengths.S, hb, Finset.sum_add_distrib, hc]
  rw [e, Finset.sum_add_distrib, Finset.sum_range_succ, Finset.sum_range_succ' (fun k => c k), c0, cl, add_zero, ← two_mul]
  have : ∑ k ∈ Finset.range ss.length, c (k + 1) ≤ (ss.map fun s => extent s ^ 2).sum := by
    have : (ss.map fun s => extent s ^ 2).sum = ∑ k ∈ Finset.range ss.length, ((ss.map fun s => extent s ^ 2)[k]?).getD 0 := by
      have hgen : ∀ l : List ℝ, l.sum = ∑ k ∈ Finset.range l.length, (l[k]?).getD 0 := by
        intro l
        induction l with
        | nil => simp
        | cons a l ih => rw [List.length_cons, Finset.sum_range_succ', List.sum_cons, ih]; simp [add_comm]
      simpa using hgen (ss.map fun s => extent s ^ 2)
    rw [this]
    refine Finset.sum_le_sum fun k hk => ?_
    have hk' : k < ss.length := Finset.mem_range.mp hk
    rw [List.getElem?_map, List.getElem?_eq_getElem hk']
    exact hck k _ (List.getElem?_eq_getElem hk')
  linarith

theorem nrm_deriv {p q : Pt} (h : q = ⟨0, 0⟩ ∨ p ≠ ⟨0, 0⟩) : HasDerivAt (fun t : ℝ => nrm ⟨p.x + t * q.x, p.y + t * q.y⟩) (dp (unit p) q) 0 := by
  rcases h with rfl | h
  · have : dp (unit p) ⟨0, 0⟩ = 0 := by simp [dp]
    rw [this]
    simpa using hasDerivAt_const (0 : ℝ) (nrm p)
  · have h0 := nrm_pos h
    have hsq := nrm_sq p
    have h1 : HasDerivAt (fun t : ℝ => (p.x + t * q.x) * (p.x + t * q.x) + (p.y + t * q.y) * (p.y + t * q.y)) (2 * (p.x * q.x + p.y * q.y)) 0 := by
      have hx : HasDerivAt (fun t : ℝ => p.x + t * q.x) q.x 0 := by simpa using ((hasDerivAt_id (0 : ℝ)).mul_const q.x).const_add p.x
      have hy : HasDerivAt (fun t : ℝ => p.y + t * q.y) q.y 0 := by simpa using ((hasDerivAt_id (0 : ℝ)).mul_const q.y).const_add p.y
      refine ((hx.mul hx).add (hy.mul hy)).congr_deriv ?_
      simp; ring
    have h2 := h1.sqrt (by
      simp only [zero_mul, add_zero]
      rw [← hsq]; positivity)
    refine h2.congr_deriv ?_
    have e : Real.sqrt ((p.x + 0 * q.x) * (p.x + 0 * q.x) + (p.y + 0 * q.y) * (p.y + 0 * q.y)) = nrm p := by simp [nrm]
    have e2 : len1 p = nrm p := by rw [len1, if_neg h0.ne']
    rw [e]
    simp only [dp, unit, e2]
    field_simp

/-- The gradient of the program, away from the singular parameters. -/
theorem steps_gradient (E : Env) (ss : List Shape) (tx rx : Pt) {N : ℕ} (hN : N = (ss.map Shape.count).sum) (v : Fin N → ℝ)
    (hns : ¬ FermatSingular E.eps ss tx rx (List.ofFn v)) :
    Rev.gradient (Rev.fermatLoss E (ss.map (robj ℕ)) (Rev.constV (V2.fin tx)) (Rev.constV (V2.fin rx))) ((List.ofFn v).map F.fin) =
      List.ofFn fun i => F.fin (SumLengths.G (Finset.range (ss.length + 1)) (bcoef ss) (stepNo E.eps ss tx rx) v i) := by
  have hp : PathAt ss tx rx (List.ofFn v) _ := (pathAt_iff (by simpa using hN)).mpr rfl
  have hg : ∀ k j, Owns ss k j → ¬ GuardStep E.eps (ptsAt ss tx rx (List.ofFn v)) k ∧ ¬ GuardStep E.eps (ptsAt ss tx rx (List.ofFn v)) (k + 1) := fun k j ho =>
    ⟨fun h => hns ⟨_, k, j, hp, ho, .inl h⟩, fun h => hns ⟨_, k, j, hp, ho, .inr h⟩⟩
  obtain ⟨f', hf, he⟩ := C107_fermat_gradient E ss tx rx N hN v _ (constObjs ss) _ hp (fun θ => plen E.eps (ptsAt ss tx rx θ))
    (fun θ h => fermat_real E tx rx (by rw [h, hN])) hg
  rw [he]
  congr 1
  funext i
  congr 1
  -- along one axis
  have h1 : HasDerivAt (fun t : ℝ => plen E.eps (ptsAt ss tx rx (List.ofFn (v + t • Pi.single i 1)))) (f' (Pi.single i 1)) 0 := by
    have hline : HasDerivAt (fun t : ℝ => v + t • (Pi.single i 1 : Fin N → ℝ)) (Pi.single i 1) 0 := by
      simpa using ((hasDerivAt_id (0 : ℝ)).smul_const (Pi.single i 1 : Fin N → ℝ)).const_add v
    have hf0 : HasFDerivAt (fun v => plen E.eps (ptsAt ss tx rx (List.ofFn v))) f' (v + (0 : ℝ) • (Pi.single i 1 : Fin N → ℝ)) := by simpa using hf
    exact hf0.comp_hasDerivAt (0 : ℝ) hline
  have h2 : HasDerivAt (fun t : ℝ => plen E.eps (ptsAt ss tx rx (List.ofFn (v + t • Pi.single i 1))))
      (SumLengths.G (Finset.range (ss.length + 1)) (bcoef ss) (stepNo E.eps ss tx rx) v i) 0 := by
    have hstep : ∀ t : ℝ, ∀ k ∈ Finset.range (ss.length + 1), stepNo E.eps ss tx rx (v + t • Pi.single i 1) k =
        ⟨(stepNo E.eps ss tx rx v k).x + t * (bcoef ss k i).x, (stepNo E.eps ss tx rx v k).y + t * (bcoef ss k i).y⟩ := by
      intro t k hk
      have hx := (steps_affine E.eps ss tx rx hN).x (v + t • Pi.single i 1) v k hk
      have hy := (steps_affine E.eps ss tx rx hN).y (v + t • Pi.single i 1) v k hk
      have ex : ∀ c : Fin N → ℝ, ∑ j, ((v + t • (Pi.single i 1 : Fin N → ℝ)) j - v j) * c j = t * c i := by
        intro c
        rw [Finset.sum_eq_single i]
        · simp
        · intro j _ hj; simp [Pi.single_eq_of_ne hj]
        · simp
      rw [ex] at hx hy
      ext
      · simp only; linarith
      · simp only; linarith
    have e : (fun t : ℝ => plen E.eps (ptsAt ss tx rx (List.ofFn (v + t • Pi.single i 1)))) = fun t : ℝ => ∑ k ∈ Finset.range (ss.length + 1),
        nrm ⟨(stepNo E.eps ss tx rx v k).x + t * (bcoef ss k i).x, (stepNo E.eps ss tx rx v k).y + t * (bcoef ss k i).y⟩ := by
      funext t
      rw [steps_length, SumLengths.L]
      exact Finset.sum_congr rfl fun k hk => by rw [hstep t k hk]
    rw [e]
    refine HasDerivAt.fun_sum fun k hk => nrm_deriv ?_
    by_contra hcon
    push Not at hcon
    obtain ⟨hb, hs⟩ := hcon
    -- a null step
    have hk' : k < ss.length + 1 := Finset.mem_range.mp hk
    have hgs : GuardStep E.eps (ptsAt ss tx rx (List.ofFn v)) k := by
      have l1 : k < (ptsAt ss tx rx (List.ofFn v)).length := by rw [ptsAt_length]; omega
      have l2 : k + 1 < (ptsAt ss tx rx (List.ofFn v)).length := by rw [ptsAt_length]; omega
      refine ⟨_, _, List.getElem?_eq_getElem l1, List.getElem?_eq_getElem l2, ?_⟩
      have sx := congrArg V2.x hs
      have sy := congrArg V2.y hs
      simp only [stepNo, ptNo, List.getElem?_eq_getElem l1, List.getElem?_eq_getElem l2, Option.getD_some, V2.add_x, V2.add_y, V2.sub_x, V2.sub_y] at sx sy
      ext
      · simp only; linarith
      · simp only; linarith
    have own : ∀ k, acoef ss (k + 1) i ≠ ⟨0, 0⟩ → Owns ss k i := by
      intro k h
      simp only [acoef] at h
      split at h
      · rename_i o d e; split at h
        · exact ⟨_, e, rfl, by assumption⟩
        · simp at h
      · rename_i o d φ e; split at h
        · exact ⟨_, e, rfl, by assumption⟩
        · simp at h
      · simp at h
    by_cases ha : acoef ss (k + 1) i = ⟨0, 0⟩
    · cases k with
      | zero => exact hb (by rw [bcoef, ha]; ext <;> simp [acoef])
      | succ k =>
        refine (hg k i (own k fun h => hb ?_)).2 hgs
        rw [bcoef, ha, h]; ext <;> simp
    · exact (hg k i (own k ha)).1 hgs
  exact h1.unique h2

end DiffeRT2d.Props
