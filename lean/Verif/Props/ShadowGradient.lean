import Verif.Props.Shadow
import Verif.Props.GradNan
import Verif.Props.ImagePath

/-! # C148: the gradient in the shadow of the quickstart -/

namespace DiffeRT2d.Props
open Classical Spec

/-- The point of reflection, from the mirror image of the transmitter. -/
theorem one_reflection {t r img : Pt} {w : Pt × Pt} (hw : w.1 ≠ w.2) (hm : Mirror w.1 w.2 t img) (hp : ¬Parallel w.1 w.2 img r) {pts : List Pt} {loss : ℝ}
    (h : traceImage t [w] r = .ok (finitePath pts loss)) : ∃ b, pts = [t, b, r] ∧ OnLine w.1 w.2 b ∧ OnLine img r b ∧ Determined t [w] pts := by
  obtain ⟨rfl, -⟩ := traceImage_iff h
  obtain ⟨h1, -⟩ := C30_points t r [w] _ [img] _ h (by simpa using hw) ⟨hm, trivial⟩ 0 w img (rback w.1 w.2 (rimg w.1 w.2 t) r) r rfl rfl rfl rfl
  obtain ⟨h2, h3⟩ := h1 hp
  refine ⟨_, rfl, h2, h3, [img], ⟨hm, trivial⟩, fun i w' img' c e1 e2 e3 => ?_⟩
  match i with
  | 0 =>
    obtain rfl := Option.some.inj e1
    obtain rfl := Option.some.inj e2
    obtain rfl := Option.some.inj e3
    exact hp
  | i + 1 => simp at e1

theorem offGuard_two {e : ℝ} {t b r : Pt} (h1 : b ≠ ⟨t.x - e, t.y - e⟩) (h2 : r ≠ ⟨b.x - e, b.y - e⟩) : OffGuard e [t, b, r] := by
  intro i u v hu hv
  match i with
  | 0 =>
    obtain rfl := Option.some.inj hu
    obtain rfl := Option.some.inj hv
    exact h1
  | 1 =>
    obtain rfl := Option.some.inj hu
    obtain rfl := Option.some.inj hv
    exact h2
  | i + 2 => simp at hv

/-- In the shadow, no candidate of order 0 or 1 is singular. -/
theorem shadow_regular {r : Pt} (hr : InShadow r) {e : ℝ} (h0 : 0 < e) (h1 : e < 1 / 5) {w : Pt × Pt} (hw : w ∈ quickstartWalls) {pts : List Pt} {loss : ℝ}
    (h : traceImage quickstartTx [w] r = .ok (finitePath pts loss)) : Determined quickstartTx [w] pts ∧ OffGuard e pts := by
  obtain ⟨r1, r2, r3, r4⟩ := hr
  have key : ∀ img, Mirror w.1 w.2 quickstartTx img → ¬Parallel w.1 w.2 img r →
      (∀ b, OnLine w.1 w.2 b → OnLine img r b → b ≠ ⟨quickstartTx.x - e, quickstartTx.y - e⟩ ∧ r ≠ ⟨b.x - e, b.y - e⟩) → Determined quickstartTx [w] pts ∧ OffGuard e pts := by
    intro img hm hp hb
    obtain ⟨b, rfl, b1, b2, b3⟩ := one_reflection (quickstart_off hw).1 hm hp h
    obtain ⟨b4, b5⟩ := hb b b1 b2
    exact ⟨b3, offGuard_two b4 b5⟩
  simp only [quickstartWalls, roomWalls, List.cons_append, List.nil_append, List.mem_cons, List.not_mem_nil, or_false] at hw
  rcases hw with rfl | rfl | rfl | rfl | rfl
  · refine key ⟨1 / 5, -(1 / 5)⟩ ?_ ?_ ?_
    · exact ⟨by norm_num [Orthogonal, quickstartTx], 1 / 5, by simp only [Spec.midpoint, pointAt, quickstartTx]; norm_num⟩
    · simp only [Parallel]; intro h; linarith
    · rintro b ⟨s, rfl⟩ -
      refine ⟨fun h => ?_, fun h => ?_⟩
      · have := congrArg V2.y h; simp only [pointAt, quickstartTx] at this; linarith
      · have := congrArg V2.y h; simp only [pointAt, quickstartTx] at this; linarith
  · refine key ⟨9 / 5, 1 / 5⟩ ?_ ?_ ?_
    · exact ⟨by norm_num [Orthogonal, quickstartTx], 1 / 5, by simp only [Spec.midpoint, pointAt, quickstartTx]; norm_num⟩
    · simp only [Parallel]; intro h; linarith
    · rintro b ⟨s, rfl⟩ ⟨u, hu⟩
      refine ⟨fun h => ?_, fun h => ?_⟩
      · have := congrArg V2.x h; simp only [pointAt, quickstartTx] at this; linarith
      · have e1 := congrArg V2.x h
        have e2 := congrArg V2.y h
        have e3 := congrArg V2.x hu
        have e4 := congrArg V2.y hu
        simp only [pointAt] at e1 e2 e3 e4
        have hu1 : u ≤ 1 := by by_contra hc; push Not at hc; nlinarith
        nlinarith
  · refine key ⟨1 / 5, 9 / 5⟩ ?_ ?_ ?_
    · exact ⟨by norm_num [Orthogonal, quickstartTx], 4 / 5, by simp only [Spec.midpoint, pointAt, quickstartTx]; norm_num⟩
    · simp only [Parallel]; intro h; linarith
    · rintro b ⟨s, rfl⟩ -
      refine ⟨fun h => ?_, fun h => ?_⟩
      · have := congrArg V2.y h; simp only [pointAt, quickstartTx] at this; linarith
      · have := congrArg V2.y h; simp only [pointAt, quickstartTx] at this; linarith
  · refine key ⟨-(1 / 5), 1 / 5⟩ ?_ ?_ ?_
    · exact ⟨by norm_num [Orthogonal, quickstartTx], 4 / 5, by simp only [Spec.midpoint, pointAt, quickstartTx]; norm_num⟩
    · simp only [Parallel]; intro h; linarith
    · rintro b ⟨s, rfl⟩ -
      refine ⟨fun h => ?_, fun h => ?_⟩
      · have := congrArg V2.x h; simp only [pointAt, quickstartTx] at this; linarith
      · have := congrArg V2.x h; simp only [pointAt, quickstartTx] at this; linarith
  · refine key ⟨7 / 5, 1 / 5⟩ ?_ ?_ ?_
    · exact ⟨by norm_num [Orthogonal, quickstartTx], 0, by simp only [Spec.midpoint, pointAt, quickstartTx]; norm_num⟩
    · simp only [Parallel]; intro h; linarith
    · rintro b ⟨s, rfl⟩ -
      refine ⟨fun h => ?_, fun h => ?_⟩
      · have := congrArg V2.x h; simp only [pointAt, quickstartTx] at this; linarith
      · have := congrArg V2.x h; simp only [pointAt, quickstartTx] at this; linarith

/-- **C148.** The gradient of the power that the quickstart plots (`grad=True`), with at most one reflection: in the shadow, where the power is zero, the gradient is exactly
zero too, and never NaN. -/
theorem C148_gradient (G : GraphLib) (hG : GraphContract G) (n : ℤ) (hn : 0 ≤ n) (hn1 : n ≤ 1) (E : Env) (he : 0 < E.eps) (he1 : E.eps < 1 / 5) (ap : Option Bool)
    (hh : Hard E ap) (kw : Rev.ActKw Rev.Coord) (kw' : ActKw) (hk : SameKw kw kw') (coef height : ℝ) (hc : 0 < coef) (hht : 0 < height) :
    ∃ (value : ℝ × ℝ → ℝ) (gradient : ℝ × ℝ → V2 F),
      (∀ P : Scene.Grid (ℝ × ℝ), Rev.accumulateOnReceiversGrid quickstartScene G { minOrder := 0, maxOrder := n } ⟨E, F.fin (1 / 100), F.fin 0, ap, kw⟩ true true
          (Rev.receivedPower E (F.fin coef) (F.fin height)) (gridX P) (gridY P) =
            .ok [("tx", .both (P.map fun row => row.map fun p => F.fin (value p)) (P.map fun row => row.map gradient))] ∧
        Rev.accumulateOnReceiversGrid quickstartScene G { minOrder := 0, maxOrder := n } ⟨E, F.fin (1 / 100), F.fin 0, ap, kw⟩ true false
          (Rev.receivedPower E (F.fin coef) (F.fin height)) (gridX P) (gridY P) = .ok [("tx", .gradient (P.map fun row => row.map gradient))]) ∧
      ∀ r : ℝ × ℝ, InShadow ⟨r.1, r.2⟩ → value r = 0 ∧ gradient r = V2.fin ⟨0, 0⟩ := by
  have hex : ∃ c, InRange quickstartWalls.length 0 n c := ⟨[], by simp [IsCandidate], le_rfl, by simpa using hn⟩
  obtain ⟨value, gradient, points, accepted, k1, k2, k3, k4, k5⟩ := C100_receivers (Key := Unit) G hG [("tx", quickstartTx)] [("rx", ⟨1 / 2, 3 / 5⟩)] (by simp [Distinct]) quickstartWalls 0 n le_rfl
    hex (fun k _ => [k]) none E ap hh (1 / 100) 0 kw kw' hk coef height hht
  refine ⟨value ("tx", quickstartTx), gradient ("tx", quickstartTx), fun P => ?_, fun r hr => ?_⟩
  · rw [quickstartScene_walls]
    exact k2 true P
  obtain ⟨h1, h2, -⟩ := k5 _ (List.mem_singleton_self _) r
  have hv : value ("tx", quickstartTx) r = 0 := by
    obtain ⟨P, hP, P0, hPr⟩ := quickstart_power (Key := Unit) G hG ⟨r.1, r.2⟩ n hn (fun k _ => [k]) none E ap hh kw' coef height hc hht
    have e : value ("tx", quickstartTx) r = P := by
      have := (k1 r).symm.trans hP
      simpa using this
    rw [e]
    refine le_antisymm (not_lt.mp fun hp => ?_) P0
    obtain ⟨c, pts, c1, c2, c3⟩ := hPr.mp hp
    exact C148_shadow hr c c1 (by exact_mod_cast c2.trans hn1) pts c3
  refine ⟨hv, ?_⟩
  have hpos : ∀ c, 0 < powerAlong E.eps coef height (points quickstartTx r c) := fun c => by unfold powerAlong; positivity
  have hA : accepted quickstartTx r = ∅ := by
    rw [Finset.eq_empty_iff_forall_notMem]
    intro c hcm
    have := Finset.sum_pos (fun c _ => hpos c) ⟨c, hcm⟩
    rw [← h1, hv] at this
    exact lt_irrefl _ this
  obtain ⟨v', hv', hg⟩ := h2 fun c hc => by
    obtain ⟨loss, hl⟩ := k3 quickstartTx r c
    obtain ⟨hcc, -, hcl⟩ := hc
    match c, hcl with
    | [], _ =>
      obtain ⟨e1, -⟩ := traceImage_iff hl
      rw [e1]
      refine ⟨(determined_iff _ _ _).mpr trivial, fun i a b ha hb => ?_⟩
      match i with
      | 0 =>
        obtain rfl := Option.some.inj ha
        obtain rfl := Option.some.inj hb
        intro h
        have e2 := congrArg V2.x h
        have e3 := hr.1
        simp only [quickstartTx] at e2 e3
        linarith
      | i + 1 => simp [rpath, wallsAt, rpts] at hb
    | [a], _ =>
      obtain ⟨a0, a1⟩ := hcc.1 a (by simp)
      obtain ⟨a, rfl⟩ := Int.eq_ofNat_of_zero_le a0
      have hlt : a < quickstartWalls.length := by exact_mod_cast a1
      have hw : wallsAt quickstartWalls [(a : ℤ)] = [quickstartWalls[a]] := by simp [wallsAt, List.getElem?_eq_getElem hlt]
      have hl' := hl
      rw [hw] at hl' ⊢
      exact shadow_regular hr he he1 (List.getElem_mem hlt) hl'
    | a :: b :: c, h => simp at h; omega
  rw [hA] at hv'
  simp only [Finset.sum_empty] at hv'
  rw [hg, hv'.unique (hasFDerivAt_const 0 r)]
  simp

/-- Non-vacuity of C148: with the graph library of Props/Candidates and at most one reflection, the gradient that is plotted at the point `(0.9, 0.5)` is exactly zero. -/
example (E : Env) (he : E.eps = 1 / 100) (a : F) : ∃ gradient : ℝ × ℝ → V2 F,
    (∀ P : Scene.Grid (ℝ × ℝ), Rev.accumulateOnReceiversGrid quickstartScene refLib { minOrder := 0, maxOrder := 1 }
      ⟨E, F.fin (1 / 100), F.fin 0, some false, (⟨a, Rev.sigmoid⟩ : Rev.ActKw Rev.Coord)⟩ true false (Rev.receivedPower E (F.fin (1 / 2)) (F.fin 1)) (gridX P) (gridY P) =
        .ok [("tx", .gradient (P.map fun row => row.map gradient))]) ∧ gradient (9 / 10, 1 / 2) = V2.fin ⟨0, 0⟩ := by
  obtain ⟨v, g, h1, h2⟩ := C148_gradient refLib refLib_contract 1 zero_le_one le_rfl E (by rw [he]; norm_num) (by rw [he]; norm_num) (some false) (.inl rfl)
    (⟨a, Rev.sigmoid⟩ : Rev.ActKw Rev.Coord) ⟨a, sigmoid⟩ (fun _ => rfl) (1 / 2) 1 (by norm_num) one_pos
  exact ⟨g, fun P => (h1 P).2, (h2 (9 / 10, 1 / 2) (by simp only [InShadow]; norm_num)).2⟩

end DiffeRT2d.Props
