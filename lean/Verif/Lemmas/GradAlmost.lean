import Verif.Lemmas.GradSoft
import Verif.Lemmas.Ties

/-! Derivatives that are right almost everywhere: the closure under the operations of the program, ties included. -/

namespace DiffeRT2d
open Classical Spec MeasureTheory Filter Topology

/-! ### Ties, at one point -/

section Point
variable {ι X : Type} [NormedAddCommGroup X] [NormedSpace ℝ X] {e : ι → X} {x0 : X} {a b : Rev ι} {f g : X → ℝ}

/-- If the functions agree, so do their derivatives. -/
def TieAt (x0 : X) (f g : X → ℝ) : Prop := f x0 = g x0 → ∀ f' g' : X →L[ℝ] ℝ, HasFDerivAt f f' x0 → HasFDerivAt g g' x0 → f' = g'

theorem hasFDerivAt_pick {f' : X →L[ℝ] ℝ} {h : X → ℝ} (hf : HasFDerivAt f f' x0) (hg : HasFDerivAt g f' x0) (hx : f x0 = g x0)
    (hh : ∀ x, h x = f x ∨ h x = g x) : HasFDerivAt h f' x0 := by
  have h0 : h x0 = f x0 := by rcases hh x0 with e | e; exacts [e, e.trans hx.symm]
  rw [hasFDerivAt_iff_isLittleO] at hf hg ⊢
  rw [Asymptotics.isLittleO_iff] at hf hg ⊢
  intro c hc
  filter_upwards [hf hc, hg hc] with x h1 h2
  rw [h0]
  rcases hh x with e | e
  · rw [e]; exact h1
  · rw [e, hx]; exact h2

theorem hasFDerivAt_max {f' g' : X →L[ℝ] ℝ} (hf : HasFDerivAt f f' x0) (hg : HasFDerivAt g g' x0) (ht : TieAt x0 f g) :
    HasFDerivAt (fun x => Max.max (f x) (g x)) (if g x0 ≤ f x0 then f' else g') x0 := by
  rcases lt_trichotomy (f x0) (g x0) with h | h | h
  · rw [if_neg (not_le.mpr h)]
    refine hg.congr_of_eventuallyEq ?_
    filter_upwards [(hf.continuousAt.eventually_lt hg.continuousAt h)] with x hx
    exact max_eq_right hx.le
  · rw [if_pos h.ge]
    have := ht h _ _ hf hg
    subst this
    exact hasFDerivAt_pick hf hg h fun x => max_choice _ _
  · rw [if_pos h.le]
    refine hf.congr_of_eventuallyEq ?_
    filter_upwards [(hg.continuousAt.eventually_lt hf.continuousAt h)] with x hx
    exact max_eq_left hx.le

theorem hasFDerivAt_min {f' g' : X →L[ℝ] ℝ} (hf : HasFDerivAt f f' x0) (hg : HasFDerivAt g g' x0) (ht : TieAt x0 f g) :
    HasFDerivAt (fun x => Min.min (f x) (g x)) (if f x0 ≤ g x0 then f' else g') x0 := by
  rcases lt_trichotomy (f x0) (g x0) with h | h | h
  · rw [if_pos h.le]
    refine hf.congr_of_eventuallyEq ?_
    filter_upwards [(hf.continuousAt.eventually_lt hg.continuousAt h)] with x hx
    exact min_eq_left hx.le
  · rw [if_pos h.le]
    have := ht h _ _ hf hg
    subst this
    exact hasFDerivAt_pick hf hg h fun x => min_choice _ _
  · rw [if_neg (not_le.mpr h)]
    refine hg.congr_of_eventuallyEq ?_
    filter_upwards [(hg.continuousAt.eventually_lt hf.continuousAt h)] with x hx
    exact min_eq_right hx.le

theorem balancedEq_real (x z y : ℝ) : Rev.balancedEq (F.fin x) (F.fin z) (F.fin y) = F.fin ((if x = z then 1 else 0) / (if y = z then 2 else 1)) := by
  have h2 : (2 : F) = F.fin 2 := rfl
  unfold Rev.balancedEq
  by_cases h : x = z <;> by_cases h' : y = z <;> simp [h, h', F.where_, F.eq, F.one_eq, F.zero_eq, h2, F.fin_div]

theorem Spec.Differentiates.max (ha : Differentiates e x0 a f) (hb : Differentiates e x0 b g) (ht : TieAt x0 f g) :
    Differentiates e x0 (Rev.max a b) fun x => Max.max (f x) (g x) := by
  obtain ⟨a1, f', a2, a3⟩ := ha
  obtain ⟨b1, g', b2, b3⟩ := hb
  refine ⟨by simp [a1, b1], _, hasFDerivAt_max a2 b2 ht, fun c i => ?_⟩
  show a.pull (F.fin c * Rev.balancedEq a.val (F.max a.val b.val) b.val) i + b.pull (F.fin c * Rev.balancedEq b.val (F.max a.val b.val) a.val) i = _
  rw [a1, b1, F.max_fin, balancedEq_real, balancedEq_real, F.fin_mul, F.fin_mul, a3, b3, F.fin_add]
  congr 1
  rcases lt_trichotomy (f x0) (g x0) with h | h | h
  · rw [if_neg (not_le.mpr h), max_eq_right h.le, if_neg h.ne, if_pos rfl]; simp [h.ne]
  · have := ht h _ _ a2 b2
    subst this
    rw [if_pos h.ge, h, max_self]; simp; ring
  · rw [if_pos h.le, max_eq_left h.le, if_pos rfl, if_neg h.ne]; simp [h.ne]

theorem Spec.Differentiates.min (ha : Differentiates e x0 a f) (hb : Differentiates e x0 b g) (ht : TieAt x0 f g) :
    Differentiates e x0 (Rev.min a b) fun x => Min.min (f x) (g x) := by
  obtain ⟨a1, f', a2, a3⟩ := ha
  obtain ⟨b1, g', b2, b3⟩ := hb
  refine ⟨by simp [a1, b1], _, hasFDerivAt_min a2 b2 ht, fun c i => ?_⟩
  show a.pull (F.fin c * Rev.balancedEq a.val (F.min a.val b.val) b.val) i + b.pull (F.fin c * Rev.balancedEq b.val (F.min a.val b.val) a.val) i = _
  rw [a1, b1, F.min_fin, balancedEq_real, balancedEq_real, F.fin_mul, F.fin_mul, a3, b3, F.fin_add]
  congr 1
  rcases lt_trichotomy (f x0) (g x0) with h | h | h
  · rw [if_pos h.le, min_eq_left h.le, if_pos rfl, if_neg h.ne']; simp [h.ne']
  · have := ht h _ _ a2 b2
    subst this
    rw [if_pos h.le, h, min_self]; simp; ring
  · rw [if_neg (not_le.mpr h), min_eq_right h.le, if_neg h.ne', if_pos rfl]; simp [h.ne']

theorem Spec.Differentiates.logistic (ha : Differentiates e x0 a f) : Differentiates e x0 a.logistic fun x => 1 / (1 + Real.exp (-f x)) := by
  obtain ⟨a1, f', a2, a3⟩ := ha
  have hp : (0 : ℝ) < 1 + Real.exp (-f x0) := by positivity
  have h1 : HasDerivAt (fun y => 1 / (1 + Real.exp (-y))) (1 / (1 + Real.exp (-f x0)) * (1 - 1 / (1 + Real.exp (-f x0)))) (f x0) := by
    have h2 : HasDerivAt (fun y : ℝ => 1 + Real.exp (-y)) (-Real.exp (-f x0)) (f x0) := by
      have h4 : HasDerivAt (fun y : ℝ => Real.exp (-y)) (Real.exp (-f x0) * (-1)) (f x0) := (hasDerivAt_neg (f x0)).exp
      have h3 := h4.const_add 1
      simpa using h3
    have h3 := h2.inv hp.ne'
    simp only [one_div]
    refine h3.congr_deriv ?_
    field_simp
    ring
  refine ⟨by show nnSigmoid a.val = _; rw [a1, nnSigmoid_fin], _, h1.comp_hasFDerivAt x0 a2, fun c i => ?_⟩
  show a.pull (F.fin c * (nnSigmoid a.val * (1 - nnSigmoid a.val))) i = _
  rw [a1, nnSigmoid_fin, F.one_eq, F.fin_sub, F.fin_mul, F.fin_mul, a3]
  congr 1
  simp
  ring

/-- The minimum of several functions. -/
theorem hasFDerivAt_minimum (l : List (X → ℝ)) (f : X → ℝ) (hd : ∀ g ∈ f :: l, ∃ g' : X →L[ℝ] ℝ, HasFDerivAt g g' x0) (ht : ∀ g ∈ f :: l, ∀ h ∈ f :: l, TieAt x0 g h) :
    ∃ m' : X →L[ℝ] ℝ, HasFDerivAt (fun x => (l.map (· x)).foldl Min.min (f x)) m' x0 ∧
      (∀ g ∈ f :: l, g x0 = (l.map (· x0)).foldl Min.min (f x0) → HasFDerivAt g m' x0) ∧ ∃ g ∈ f :: l, g x0 = (l.map (· x0)).foldl Min.min (f x0) := by
  have hfold : ∀ (l : List (X → ℝ)) (f : X → ℝ), (∀ g ∈ f :: l, (l.map (· x0)).foldl Min.min (f x0) ≤ g x0) ∧
      (∃ g ∈ f :: l, g x0 = (l.map (· x0)).foldl Min.min (f x0)) := by
    intro l
    induction l with
    | nil => exact fun f => ⟨by simp, f, by simp⟩
    | cons k l ih =>
      intro f
      obtain ⟨h1, g, hg, h2⟩ := ih fun x => Min.min (f x) (k x)
      simp only [List.map_cons, List.foldl_cons]
      have hle := h1 _ List.mem_cons_self
      refine ⟨fun g hg => ?_, ?_⟩
      · rcases List.mem_cons.mp hg with rfl | hg
        · exact hle.trans (min_le_left _ _)
        · rcases List.mem_cons.mp hg with rfl | hg
          · exact hle.trans (min_le_right _ _)
          · exact h1 g (List.mem_cons_of_mem _ hg)
      · rcases List.mem_cons.mp hg with rfl | hg
        · rcases min_choice (f x0) (k x0) with e' | e'
          · exact ⟨f, by simp, by rw [← h2]; exact e'.symm⟩
          · exact ⟨k, by simp, by rw [← h2]; exact e'.symm⟩
        · exact ⟨g, by simp [hg], h2⟩
  obtain ⟨g0, hg0, e0⟩ := (hfold l f).2
  obtain ⟨m', hm'⟩ := hd g0 hg0
  have hall : ∀ g ∈ f :: l, g x0 = (l.map (· x0)).foldl Min.min (f x0) → HasFDerivAt g m' x0 := by
    intro g hg eg
    obtain ⟨g', hg'⟩ := hd g hg
    rw [ht g0 hg0 g hg (e0.trans eg.symm) _ _ hm' hg']
    exact hg'
  refine ⟨m', ?_, hall, g0, hg0, e0⟩
  -- induction, with the derivative of the smallest
  clear hm' hg0 e0
  induction l generalizing f with
  | nil => exact hall f (by simp) rfl
  | cons k l ih =>
    simp only [List.map_cons, List.foldl_cons] at hall ⊢
    obtain ⟨f', hf'⟩ := hd f (by simp)
    obtain ⟨k', hk'⟩ := hd k (by simp)
    have htie := ht f (by simp) k (by simp)
    have hmin := hasFDerivAt_min hf' hk' htie
    refine ih (fun x => Min.min (f x) (k x)) ?_ ?_ ?_
    · intro g hg
      rcases List.mem_cons.mp hg with rfl | hg
      · exact ⟨_, hmin⟩
      · exact hd g (by simp [hg])
    · have hpick : ∀ h ∈ l, TieAt x0 (fun x => Min.min (f x) (k x)) h := by
        intro h hh e m' h' hm hh'
        have hm := hm.unique hmin
        subst hm
        by_cases hle : f x0 ≤ k x0
        · rw [if_pos hle]
          exact ht f (by simp) h (by simp [hh]) (by rw [← e]; exact (min_eq_left hle).symm) _ _ hf' hh'
        · rw [if_neg hle]
          exact ht k (by simp) h (by simp [hh]) (by rw [← e]; exact (min_eq_right (not_le.mp hle).le).symm) _ _ hk' hh'
      intro g hg h hh
      rcases List.mem_cons.mp hg with rfl | hg <;> rcases List.mem_cons.mp hh with rfl | hh
      · exact fun _ f' g' h1 h2 => h1.unique h2
      · exact hpick h hh
      · exact fun e g' m' h1 h2 => (hpick g hg e.symm m' g' h2 h1).symm
      · exact ht g (by simp [hg]) h (by simp [hh])
    · intro g hg eg
      rcases List.mem_cons.mp hg with rfl | hg
      · by_cases hle : f x0 ≤ k x0
        · rw [if_pos hle] at hmin
          rw [hf'.unique (hall f (by simp) (by rw [← eg]; exact (min_eq_left hle).symm))] at hmin
          exact hmin
        · rw [if_neg hle] at hmin
          rw [hk'.unique (hall k (by simp) (by rw [← eg]; exact (min_eq_right (not_le.mp hle).le).symm))] at hmin
          exact hmin
      · exact hall g (by simp [hg]) eg

theorem minOf_real (l : List ℝ) (x : ℝ) : F.minOf (F.fin x) (l.map F.fin) = F.fin (l.foldl Min.min x) := by
  induction l generalizing x with
  | nil => rfl
  | cons y l ih => 
    have := ih (Min.min x y)
    simp only [F.minOf, List.map_cons, List.foldl_cons, F.min_fin] at this ⊢
    exact this

/-- The sum of what is sent back. -/
theorem foldl_fin {α : Type} (l : List α) (u : α → ℝ) (z : ℝ) : (l.map fun a => F.fin (u a)).foldl (· + ·) (F.fin z) = F.fin (z + (l.map u).sum) := by
  induction l generalizing z with
  | nil => simp
  | cons a l ih => simp [F.fin_add, ih, add_assoc]

theorem Spec.Differentiates.minOf (l : List (Rev ι × (X → ℝ))) (p : Rev ι × (X → ℝ)) (hd : ∀ q ∈ p :: l, Differentiates e x0 q.1 q.2)
    (ht : ∀ q ∈ p :: l, ∀ r ∈ p :: l, TieAt x0 q.2 r.2) :
    Differentiates e x0 (Rev.minOf p.1 (l.map Prod.fst)) fun x => ((l.map Prod.snd).map (· x)).foldl Min.min (p.2 x) := by
  obtain ⟨m', h1, h2, h3⟩ := hasFDerivAt_minimum (x0 := x0) (l.map Prod.snd) p.2 (by
    intro g hg
    obtain ⟨q, hq, rfl⟩ : ∃ q ∈ p :: l, q.2 = g := (List.mem_map (f := Prod.snd) (l := p :: l)).mp hg
    obtain ⟨-, g', hg', -⟩ := hd q hq
    exact ⟨g', hg'⟩) (by
    intro g hg h hh
    obtain ⟨q, hq, rfl⟩ : ∃ q ∈ p :: l, q.2 = g := (List.mem_map (f := Prod.snd) (l := p :: l)).mp hg
    obtain ⟨r, hr, rfl⟩ : ∃ r ∈ p :: l, r.2 = h := (List.mem_map (f := Prod.snd) (l := p :: l)).mp hh
    exact ht q hq r hr)
  generalize hm : ((l.map Prod.snd).map (· x0)).foldl Min.min (p.2 x0) = m at h2 h3
  have hval : F.minOf p.1.val ((l.map Prod.fst).map Rev.val) = F.fin m := by
    rw [(hd p (by simp)).value, ← hm, ← minOf_real]
    congr 1
    simp only [List.map_map]
    exact List.map_congr_left fun q hq => (hd q (by simp [hq])).value
  refine ⟨by rw [Rev.val_minOf, hval, hm], m', h1, fun c i => ?_⟩
  have hcount : ((p.1 :: l.map Prod.fst).countP fun y => F.eq y.val (F.fin m)) = ((p :: l).countP fun q => decide (q.2 x0 = m)) := by
    have : (p.1 :: l.map Prod.fst) = (p :: l).map Prod.fst := rfl
    rw [this, List.countP_map]
    refine List.countP_congr fun q hq => ?_
    simp only [Function.comp, (hd q hq).value, F.eq]
  have hpos : ((p :: l).countP fun q => decide (q.2 x0 = m)) ≠ 0 := by
    obtain ⟨g, hg, eg⟩ := h3
    obtain ⟨q, hq, rfl⟩ : ∃ q ∈ p :: l, q.2 = g := (List.mem_map (f := Prod.snd) (l := p :: l)).mp hg
    exact (List.countP_pos_iff.mpr ⟨q, hq, by simpa using eg⟩).ne'
  show ((p.1 :: l.map Prod.fst).map fun y => y.pull (F.where_ (F.eq y.val (F.minOf p.1.val ((l.map Prod.fst).map Rev.val))) 1 0 *
    (F.fin c / F.fin ((p.1 :: l.map Prod.fst).countP fun y => F.eq y.val (F.minOf p.1.val ((l.map Prod.fst).map Rev.val))))) i).foldl (· + ·) 0 = _
  rw [hval, hcount]
  generalize hn : ((p :: l).countP fun q => decide (q.2 x0 = m)) = n at hpos
  have hn0 : (n : ℝ) ≠ 0 := by exact_mod_cast hpos
  have hterm : ∀ q ∈ p :: l, q.1.pull (F.where_ (F.eq q.1.val (F.fin m)) 1 0 * (F.fin c / F.fin n)) i = F.fin (if q.2 x0 = m then c / n * m' (e i) else 0) := by
    intro q hq
    obtain ⟨v, g', hg', hpull⟩ := hd q hq
    rw [F.fin_div _ hn0, v]
    by_cases hqm : q.2 x0 = m
    · have e1 : F.eq (F.fin (q.2 x0)) (F.fin m) = true := by simp [F.eq, hqm]
      have : g' = m' := hg'.unique (h2 q.2 (by
        rcases List.mem_cons.mp hq with rfl | hq
        · simp
        · exact List.mem_cons_of_mem _ (List.mem_map_of_mem hq)) hqm)
      rw [e1, if_pos hqm]
      simp only [F.where_, if_true, F.one_eq, F.fin_mul, hpull, one_mul, this]
    · have e1 : F.eq (F.fin (q.2 x0)) (F.fin m) = false := by simp [F.eq, hqm]
      rw [e1, if_neg hqm]
      simp only [F.where_, Bool.false_eq_true, if_false, F.zero_eq, F.fin_mul, hpull, zero_mul]
  have hlist : ((p.1 :: l.map Prod.fst).map fun y => y.pull (F.where_ (F.eq y.val (F.fin m)) 1 0 * (F.fin c / F.fin n)) i) =
      (p :: l).map fun q => F.fin (if q.2 x0 = m then c / n * m' (e i) else 0) := by
    have : (p.1 :: l.map Prod.fst) = (p :: l).map Prod.fst := rfl
    rw [this, List.map_map]
    exact List.map_congr_left hterm
  rw [hlist, F.zero_eq, foldl_fin]
  congr 1
  have hsum : ∀ L : List (Rev ι × (X → ℝ)), (L.map fun q => if q.2 x0 = m then c / n * m' (e i) else 0).sum = (L.countP fun q => decide (q.2 x0 = m)) * (c / n * m' (e i)) := by
    intro L
    induction L with
    | nil => simp
    | cons q L ih =>
      rw [List.map_cons, List.sum_cons, ih, List.countP_cons]
      by_cases hqm : q.2 x0 = m <;> simp [hqm]
      ring
  rw [hsum, hn]
  field_simp
  ring

end Point

end DiffeRT2d
