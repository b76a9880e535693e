import Verif.Spec.Directions
import Verif.Lemmas.Smooth
import Verif.Lemmas.GradDeriv
import Verif.Props.Specular
import Verif.Props.Rate
import Mathlib.Analysis.Calculus.LocalExtr.Basic

/-! First variation of the length of an image path. -/

namespace DiffeRT2d
open Classical Spec Filter Topology

variable {X : Type} [NormedAddCommGroup X] [NormedSpace ℝ X] {x0 : X} {n : ℕ}

theorem sub_ne_zero_pt {p q : Pt} (h : p ≠ q) : q - p ≠ ⟨0, 0⟩ := by
  intro e
  apply h
  have e1 : q.x - p.x = 0 := congrArg V2.x e
  have e2 : q.y - p.y = 0 := congrArg V2.y e
  ext <;> linarith

theorem eucl_smooth {p q : X → Pt} (hp : SmoothAt n p x0) (hq : SmoothAt n q x0) (h : p x0 ≠ q x0) : ContDiffAt ℝ n (fun x => eucl (p x) (q x)) x0 := by
  simp only [eucl_eq_nrm]
  exact (hq.sub hp).nrm (sub_ne_zero_pt h)

theorem noPause_cons {a b : Pt} {ps : List Pt} : NoPause (a :: b :: ps) ↔ a ≠ b ∧ NoPause (b :: ps) := by
  constructor
  · exact fun h => ⟨h 0 a b rfl rfl, fun i p q hp hq => h (i + 1) p q hp hq⟩
  · rintro ⟨h1, h2⟩ i p q hp hq
    cases i with
    | zero =>
      simp only [List.getElem?_cons_zero, Option.some.injEq, zero_add, List.getElem?_cons_succ] at hp hq
      subst hp hq
      exact h1
    | succ i => exact h2 i p q hp hq

/-- The guarded length of a path that moves smoothly, together with the guard. -/
theorem guardedLength_smooth {eps : X → ℝ} (he : ContDiffAt ℝ n eps x0) (h0 : eps x0 = 0) :
    ∀ {ps : List (X → Pt)}, (∀ p ∈ ps, SmoothAt n p x0) → NoPause (ps.map (· x0)) → ContDiffAt ℝ n (fun x => guardedLength (eps x) (ps.map (· x))) x0
  | [], _, _ => contDiffAt_const
  | [_], _, _ => contDiffAt_const
  | a :: b :: ps, hs, hp => by
    have hp' := noPause_cons.mp hp
    have ha := hs a (by simp)
    have hb := hs b (by simp)
    have : (fun x => guardedLength (eps x) ((a :: b :: ps).map (· x))) =
        fun x => eucl (a x) ⟨(b x).x + eps x, (b x).y + eps x⟩ + guardedLength (eps x) ((b :: ps).map (· x)) := by
      funext x; rfl
    rw [this]
    refine (eucl_smooth (q := fun x => ⟨(b x).x + eps x, (b x).y + eps x⟩) ha ⟨hb.1.add he, hb.2.add he⟩ ?_).add
      (guardedLength_smooth he h0 (fun p h => hs p (List.mem_cons_of_mem _ h)) hp'.2)
    show a x0 ≠ ⟨(b x0).x + eps x0, (b x0).y + eps x0⟩
    simpa [h0] using hp'.1

theorem const_walls (ws : List RWall) (x : X) : (ws.map fun w (_ : X) => w).map (· x) = ws := by
  simp [Function.comp_def]

theorem const_walls_smooth {ws : List RWall} (hw : ∀ w ∈ ws, w.1 ≠ w.2) : ∀ w ∈ (ws.map fun w (_ : X) => w), WallSmooth n w x0 := by
  intro w h
  obtain ⟨v, hv, rfl⟩ := List.mem_map.mp h
  exact ⟨⟨contDiffAt_const, contDiffAt_const⟩, ⟨contDiffAt_const, contDiffAt_const⟩, hw v hv⟩

theorem guardedPath_smooth {eps : X → ℝ} (he : ContDiffAt ℝ n eps x0) (h0 : eps x0 = 0) {t r : X → Pt} (ht : SmoothAt n t x0) (hr : SmoothAt n r x0)
    {ws : List RWall} (hw : ∀ w ∈ ws, w.1 ≠ w.2) (hp : NoPause (rpath (t x0) (r x0) ws)) :
    ContDiffAt ℝ n (fun x => guardedLength (eps x) (rpath (t x) (r x) ws)) x0 := by
  have hat : ∀ x, (mpath t r (ws.map fun w (_ : X) => w)).map (· x) = rpath (t x) (r x) ws := fun x => by rw [mpath_at, const_walls]
  have := guardedLength_smooth he h0 (mpath_smooth ht hr (const_walls_smooth hw) fun _ => by rw [const_walls]; exact hp) (by rw [hat]; exact hp)
  simpa only [hat] using this

/-- Near `x0` the path does not stand still. -/
theorem noPause_near {t r : X → Pt} (ht : SmoothAt n t x0) (hr : SmoothAt n r x0) {ws : List RWall} (hw : ∀ w ∈ ws, w.1 ≠ w.2)
    (hp : NoPause (rpath (t x0) (r x0) ws)) : ∀ᶠ x in 𝓝 x0, NoPause (rpath (t x) (r x) ws) := by
  have hat : ∀ x, (mpath t r (ws.map fun w (_ : X) => w)).map (· x) = rpath (t x) (r x) ws := fun x => by rw [mpath_at, const_walls]
  have hs := mpath_smooth ht hr (const_walls_smooth hw) fun _ => by rw [const_walls]; exact hp
  have gen : ∀ ps : List (X → Pt), (∀ p ∈ ps, SmoothAt n p x0) → NoPause (ps.map (· x0)) → ∀ᶠ x in 𝓝 x0, NoPause (ps.map (· x)) := by
    intro ps
    induction ps with
    | nil => exact fun _ _ => Eventually.of_forall fun x i a b h => by simp at h
    | cons a ps ih =>
      intro hs hp
      cases ps with
      | nil => exact Eventually.of_forall fun x i a b h h' => by simp at h'
      | cons b ps =>
        have hp' := noPause_cons.mp hp
        have h1 : ∀ᶠ x in 𝓝 x0, a x ≠ b x := by
          have hc := (eucl_smooth (hs a (by simp)) (hs b (by simp)) hp'.1).continuousAt
          have hne : eucl (a x0) (b x0) ≠ 0 := by
            rw [eucl_eq_nrm, Ne, nrm_eq_zero]
            exact sub_ne_zero_pt hp'.1
          filter_upwards [hc.eventually_ne hne] with x hx e
          rw [e, eucl_self] at hx
          exact hx rfl
        filter_upwards [h1, ih (fun p h => hs p (List.mem_cons_of_mem _ h)) hp'.2] with x h1 h2
        exact noPause_cons.mpr ⟨h1, h2⟩
  filter_upwards [gen _ hs (by rw [hat]; exact hp)] with x hx
  rwa [hat] at hx

theorem rpts_onLines {img r : Pt} {ws : List RWall} (h : Unguarded img r ws) : List.Forall₂ (fun w p => dp (p - w.1) (rn w.1 w.2) = 0) ws (rpts img r ws) := by
  induction ws generalizing img with
  | nil => exact .nil
  | cons w ws ih => exact .cons (rback_on h.1) (ih h.2)

theorem rimgs_smooth {t : X → Pt} (ht : SmoothAt n t x0) : ∀ {ws : List RWall}, (∀ w ∈ ws, w.1 ≠ w.2) → SmoothAt n (fun x => rimgs (t x) ws) x0 := by
  intro ws
  induction ws generalizing t with
  | nil => exact fun _ => ht
  | cons w ws ih =>
    intro hw
    have h1 : SmoothAt n (fun x => rimg w.1 w.2 (t x)) x0 := SmoothAt.rimg (o := fun _ => w.1) (d := fun _ => w.2) ⟨contDiffAt_const, contDiffAt_const⟩ ⟨contDiffAt_const, contDiffAt_const⟩ (hw w (by simp)) ht
    exact ih h1 fun w h => hw w (by simp [h])

theorem polyLength_pos {a b : Pt} {ps : List Pt} (h : a ≠ b) : 0 < polyLength (a :: b :: ps) := by
  have h1 : 0 < eucl a b := lt_of_le_of_ne (eucl_nonneg _ _) (by
    rw [eucl_eq_nrm, ne_comm, Ne, nrm_eq_zero]
    exact sub_ne_zero_pt h)
  have := polyLength_nonneg (b :: ps)
  simp only [polyLength]
  linarith

theorem rpath_two (t r : Pt) (ws : List RWall) : ∃ b ps, rpath t r ws = t :: b :: ps := by
  unfold rpath
  cases rpts t r ws with
  | nil => exact ⟨r, [], rfl⟩
  | cons p l => exact ⟨p, l ++ [r], rfl⟩

/-- Fermat's principle, to the first order: the length of a specular path varies as if its interaction points stayed where they are. -/
theorem first_variation {t r : X → Pt} (ht : SmoothAt 1 t x0) (hr : SmoothAt 1 r x0) {ws : List RWall} (hw : ∀ w ∈ ws, w.1 ≠ w.2)
    (hp : NoPause (rpath (t x0) (r x0) ws)) (hl : (scores ws (rpath (t x0) (r x0) ws)).sum < 1) {L' M' : X →L[ℝ] ℝ}
    (hL : HasFDerivAt (fun x => polyLength (rpath (t x) (r x) ws)) L' x0)
    (hM : HasFDerivAt (fun x => polyLength (t x :: rpts (t x0) (r x0) ws ++ [r x])) M' x0) : L' = M' := by
  have hm := scores_mem ws (t x0) (r x0) (t x0) 1 (rpath_first (t x0) (r x0) ws)
  have h0 := sum_small hm (by have := hl; simp only [rpath] at this; linarith)
  have hz := scores_zero ws (t x0) (r x0) (t x0) 1 one_pos (rpath_first (t x0) (r x0) ws) h0
  have hlen : polyLength (rpath (t x0) (r x0) ws) = eucl (rimgs (t x0) ws) (r x0) := by
    rw [← hz.2]
    unfold rpath
    cases rpts (t x0) (r x0) ws <;> simp [polyLength]
  have hne : rimgs (t x0) ws ≠ r x0 := by
    intro e
    rw [e, eucl_self] at hlen
    obtain ⟨b, ps, hb⟩ := rpath_two (t x0) (r x0) ws
    rw [hb] at hp hlen
    exact (polyLength_pos (noPause_cons.mp hp).1).ne' hlen
  obtain ⟨I', hI⟩ : ∃ I' : X →L[ℝ] ℝ, HasFDerivAt (fun x => eucl (rimgs (t x) ws) (r x)) I' x0 :=
    ⟨_, ((eucl_smooth (rimgs_smooth ht hw) hr hne).differentiableAt (by norm_num)).hasFDerivAt⟩
  have hmin1 : IsLocalMin (fun x => polyLength (rpath (t x) (r x) ws) - eucl (rimgs (t x) ws) (r x)) x0 := by
    filter_upwards [noPause_near ht hr hw hp] with x hx
    have hu : Unguarded (t x) (r x) ws := unguarded_of_noPause fun i a b ha hb => hx (i + 1) a b ha hb
    have := unfold_le ws (t x) (r x) _ (rpts_onLines hu)
    rw [hlen, sub_self]
    exact sub_nonneg.mpr this
  have hmin2 : IsLocalMin (fun x => polyLength (t x :: rpts (t x0) (r x0) ws ++ [r x]) - eucl (rimgs (t x) ws) (r x)) x0 := by
    refine Eventually.of_forall fun x => ?_
    have h1 := unfold_le ws (t x) (r x) _ hz.1
    have h2 : polyLength (t x0 :: rpts (t x0) (r x0) ws ++ [r x0]) = eucl (rimgs (t x0) ws) (r x0) := hlen
    show _ - _ ≤ _ - _
    rw [h2, sub_self]
    exact sub_nonneg.mpr h1
  have e1 := IsLocalMin.hasFDerivAt_eq_zero hmin1 (hL.sub hI)
  have e2 := IsLocalMin.hasFDerivAt_eq_zero hmin2 (hM.sub hI)
  rw [sub_eq_zero] at e1 e2
  rw [e1, e2]

/-- A function that is smooth in two variables: the derivative in the second one is continuous in the first one. -/
theorem partial_tendsto {Φ : ℝ × X → ℝ} (h : ContDiffAt ℝ 1 Φ (0, x0)) (v : X) :
    Tendsto (fun ε : ℝ => fderiv ℝ (fun x => Φ (ε, x)) x0 v) (𝓝 0) (𝓝 (fderiv ℝ (fun x => Φ (0, x)) x0 v)) := by
  have hc : ContinuousAt (fun p => fderiv ℝ Φ p) (0, x0) := (h.fderiv_right (m := 0) (by norm_num)).continuousAt
  have hd : ∀ᶠ p in 𝓝 ((0 : ℝ), x0), DifferentiableAt ℝ Φ p := by
    filter_upwards [h.eventually (by simp)] with p hp
    exact hp.differentiableAt (by norm_num)
  have hι : Tendsto (fun ε : ℝ => (ε, x0)) (𝓝 0) (𝓝 (0, x0)) := by
    have : Continuous fun ε : ℝ => (ε, x0) := by fun_prop
    exact this.tendsto 0
  have hcalc : ∀ ε, DifferentiableAt ℝ Φ (ε, x0) → fderiv ℝ (fun x => Φ (ε, x)) x0 v = fderiv ℝ Φ (ε, x0) (0, v) := by
    intro ε hd
    have h1 : HasFDerivAt (fun x : X => (ε, x)) (ContinuousLinearMap.inr ℝ ℝ X) x0 := hasFDerivAt_prodMk_right ε x0
    have := (hd.hasFDerivAt.comp x0 h1).fderiv
    rw [show (fun x => Φ (ε, x)) = Φ ∘ fun x => (ε, x) from rfl, this]
    simp
  have hlim : Tendsto (fun ε : ℝ => fderiv ℝ Φ (ε, x0) (0, v)) (𝓝 0) (𝓝 (fderiv ℝ Φ (0, x0) (0, v))) :=
    ((ContinuousLinearMap.apply ℝ ℝ ((0 : ℝ), v)).continuous.tendsto _).comp (hc.tendsto.comp hι)
  rw [hcalc 0 hd.self_of_nhds]
  refine hlim.congr' ?_
  filter_upwards [hι.eventually hd] with ε hε
  exact (hcalc ε hε).symm

end DiffeRT2d
