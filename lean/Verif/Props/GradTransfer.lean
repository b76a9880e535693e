import Verif.Props.GradHardAlmost
import Verif.Props.Symmetry
import Verif.Spec.GradTransfer
import Mathlib.MeasureTheory.Measure.Lebesgue.EqHaar

/-! # C140: symmetries of the values are symmetries of the gradients -/

namespace DiffeRT2d.Props
open Classical Spec MeasureTheory Filter Topology

instance : (volume : Measure (ℝ × ℝ)).IsAddHaarMeasure := by rw [Measure.volume_eq_prod]; infer_instance

/-- The linear part of an invertible affine map. -/
noncomputable def linearPart (A : Affine) (hA : A.Invertible) : (ℝ × ℝ) ≃ₗ[ℝ] (ℝ × ℝ) where
  toFun p := (A.a * p.1 + A.b * p.2, A.c * p.1 + A.d * p.2)
  map_add' p q := by ext <;> simp <;> ring
  map_smul' r p := by ext <;> simp <;> ring
  invFun p := ((A.d * p.1 - A.b * p.2) / (A.a * A.d - A.b * A.c), (A.a * p.2 - A.c * p.1) / (A.a * A.d - A.b * A.c))
  left_inv p := by
    have h : A.a * A.d - A.b * A.c ≠ 0 := hA
    ext <;> simp only <;> rw [div_eq_iff h] <;> ring
  right_inv p := by
    have h : A.a * A.d - A.b * A.c ≠ 0 := hA
    ext <;> simp only <;> rw [mul_div_assoc', mul_div_assoc', ← add_div, div_eq_iff h] <;> ring

theorem pair_eq (A : Affine) (hA : A.Invertible) : A.pair = fun p => linearPart A hA p + (A.tx, A.ty) := by
  funext p
  ext <;> simp [Affine.pair, Affine.app, linearPart]

theorem pair_quasi (A : Affine) (hA : A.Invertible) : Measure.QuasiMeasurePreserving A.pair volume volume := by
  rw [pair_eq A hA]
  exact (measurePreserving_add_right (volume : Measure (ℝ × ℝ)) (A.tx, A.ty)).quasiMeasurePreserving.comp
    (Measure.LinearMap.quasiMeasurePreserving volume (linearPart A hA : (ℝ × ℝ) →ₗ[ℝ] (ℝ × ℝ)) (LinearEquiv.isUnit_det' _).ne_zero)

theorem pair_deriv (A : Affine) (hA : A.Invertible) (p : ℝ × ℝ) : HasFDerivAt A.pair ((linearPart A hA).toContinuousLinearEquiv : (ℝ × ℝ) →L[ℝ] (ℝ × ℝ)) p := by
  rw [pair_eq A hA]
  exact ((linearPart A hA).toContinuousLinearEquiv : (ℝ × ℝ) →L[ℝ] (ℝ × ℝ)).hasFDerivAt.add_const _

/-- A gradient seen through an affine map. -/
theorem gradient_pulls (A : Affine) (hA : A.Invertible) {v v' : ℝ × ℝ → ℝ} {p : ℝ × ℝ} (h : ∀ᶠ q in 𝓝 p, v' (A.pair q) = v q) {g g' : V2 F}
    (hg : GradientAt v p g) (hg' : GradientAt v' (A.pair p) g') : ∃ d d' : Pt, g = V2.fin d ∧ g' = V2.fin d' ∧ A.Pulls d' d := by
  obtain ⟨D, h1, rfl⟩ := hg
  obtain ⟨D', h2, rfl⟩ := hg'
  refine ⟨_, _, rfl, rfl, ?_⟩
  have h3 := h2.comp p (pair_deriv A hA p)
  have h4 : HasFDerivAt v (D'.comp ((linearPart A hA).toContinuousLinearEquiv : (ℝ × ℝ) →L[ℝ] (ℝ × ℝ))) p :=
    h3.congr_of_eventuallyEq (h.mono fun q hq => hq.symm)
  have h5 := h1.unique h4
  have hD : ∀ x y : ℝ, D' (x, y) = D' (1, 0) * x + D' (0, 1) * y := by
    intro x y
    have : ((x, y) : ℝ × ℝ) = x • (1, 0) + y • (0, 1) := by ext <;> simp
    rw [this, map_add, map_smul, map_smul]
    simp only [smul_eq_mul]
    ring
  unfold Affine.Pulls
  rw [h5]
  ext
  · show D' (A.a * 1 + A.b * 0, A.c * 1 + A.d * 0) = _
    rw [hD]; ring
  · show D' (A.a * 0 + A.b * 1, A.c * 0 + A.d * 1) = _
    rw [hD]; ring

/-- C103 and C105 in one. -/
theorem covered_gradients (G : GraphLib) (hG : GraphContract G) (S : PowerSettings) (walls : List (Pt × Pt)) (h : Covered S walls) (Key : Type) :
    ∃ L, Lines L ∧ ∀ tx rx : PyDict Pt, Distinct tx → (∀ t ∈ tx, OffLines L t.2) →
      ∃ (value : String × Pt → ℝ × ℝ → ℝ) (gradient : String × Pt → ℝ × ℝ → V2 F),
        (∀ r : ℝ × ℝ, powersAt Key G S tx walls ⟨r.1, r.2⟩ = .ok (tx.map fun t => F.fin (value t r))) ∧
        (∀ P : Scene.Grid (ℝ × ℝ), gradientMap G S tx rx walls P = .ok (tx.map fun t => (t.1, .gradient (P.map fun row => row.map (gradient t))))) ∧
        ∀ t ∈ tx, ∀ᵐ r : ℝ × ℝ, ∀ᶠ q in 𝓝 r, GradientAt (value t) q (gradient t q) := by
  rcases h.mode with ⟨hh, hk⟩ | ⟨hs, hun, hp, a, ha, hk⟩
  · obtain ⟨L, hL, H⟩ := C105_receivers (Key := Key) G hG walls h.proper S.lo S.hi h.lo h.some (fun _ _ => []) none S.E h.eps S.ap hh S.tol S.patch S.kw S.kw' hk S.coef S.height h.height
    refine ⟨L, hL, fun tx rx ht ho => ?_⟩
    obtain ⟨value, gradient, h1, h2, h3⟩ := H tx rx ht ho
    refine ⟨value, gradient, fun r => ?_, fun P => (h2 true P).2, h3⟩
    unfold powersAt
    rw [h1]
    simp [Except.map, Function.comp_def]
  · obtain ⟨L, hL, H⟩ := C103_receivers (Key := Key) G hG walls h.proper S.lo S.hi h.lo h.some (fun _ _ => []) none S.E h.eps hun S.ap hs S.tol S.patch a hp ha S.kw S.kw' hk S.coef S.height h.height
    refine ⟨L, hL, fun tx rx ht ho => ?_⟩
    obtain ⟨value, gradient, h1, h2, h3⟩ := H tx rx ht ho
    refine ⟨value, gradient, fun r => ?_, fun P => (h2 true P).2, h3⟩
    unfold powersAt
    rw [h1]
    simp [Except.map, Function.comp_def]

/-- **C140.** If, near almost every position, the received powers of one scene at a position are those of another scene at the position moved by
an affine map, then almost everywhere the gradients that the grid method returns for the first are those that it returns for the second, seen
through the map. In both modes; the two scenes may have different settings and modes. -/
theorem C140_transfer (G : GraphLib) (hG : GraphContract G) (Key : Type) (S S' : PowerSettings) (walls walls' : List (Pt × Pt)) (h : Covered S walls) (h' : Covered S' walls')
    (A : Affine) (hA : A.Invertible) :
    ∃ L L', Lines L ∧ Lines L' ∧ ∀ tx tx' rx rx' : PyDict Pt, Distinct tx → Distinct tx' → (∀ t ∈ tx, OffLines L t.2) → (∀ t ∈ tx', OffLines L' t.2) →
      (∀ᵐ r : ℝ × ℝ, ∀ᶠ q : ℝ × ℝ in 𝓝 r, ∀ zs, powersAt Key G S tx walls ⟨q.1, q.2⟩ = .ok zs → powersAt Key G S' tx' walls' (A.app ⟨q.1, q.2⟩) = .ok zs) →
      ∃ gradient gradient' : String × Pt → ℝ × ℝ → V2 F,
        (∀ P, gradientMap G S tx rx walls P = .ok (tx.map fun t => (t.1, .gradient (P.map fun row => row.map (gradient t))))) ∧
        (∀ P, gradientMap G S' tx' rx' walls' P = .ok (tx'.map fun t => (t.1, .gradient (P.map fun row => row.map (gradient' t))))) ∧
        ∀ (i : ℕ) t t', tx[i]? = some t → tx'[i]? = some t' → ∀ᵐ r : ℝ × ℝ, ∃ d d' : Pt, gradient t r = V2.fin d ∧ gradient' t' (A.pair r) = V2.fin d' ∧ A.Pulls d' d := by
  obtain ⟨L, hL, H⟩ := covered_gradients G hG S walls h Key
  obtain ⟨L', hL', H'⟩ := covered_gradients G hG S' walls' h' Key
  refine ⟨L, L', hL, hL', fun tx tx' rx rx' ht ht' ho ho' hv => ?_⟩
  obtain ⟨v, g, h1, h2, h3⟩ := H tx rx ht ho
  obtain ⟨v', g', h1', h2', h3'⟩ := H' tx' rx' ht' ho'
  refine ⟨g, g', h2, h2', fun i t t' hi hi' => ?_⟩
  have e1 := h3 t (List.mem_of_getElem? hi)
  have e2 := (pair_quasi A hA).ae (h3' t' (List.mem_of_getElem? hi'))
  filter_upwards [e1, e2, hv] with r a1 a2 a3
  refine gradient_pulls A hA (a3.mono fun q hq => ?_) a1.self_of_nhds a2.self_of_nhds
  have hl := h1' (A.pair q)
  have hr := h1 q
  rw [show (⟨(A.pair q).1, (A.pair q).2⟩ : Pt) = A.app ⟨q.1, q.2⟩ from rfl, hq _ hr] at hl
  have := congrArg (fun l : List F => l[i]?) (Except.ok.inj hl)
  simp only [List.getElem?_map, hi, hi', Option.map_some, Option.some.injEq] at this
  exact (F.fin.inj this).symm

/-- C103 and C105 in one, for transmitters. -/
theorem covered_gradients_tx (G : GraphLib) (hG : GraphContract G) (S : PowerSettings) (walls : List (Pt × Pt)) (h : Covered S walls) (Key : Type) :
    ∃ L, Lines L ∧ ∀ tx rx : PyDict Pt, Distinct rx → (∀ t ∈ rx, OffLines L t.2) →
      ∃ (value : String × Pt → ℝ × ℝ → ℝ) (gradient : String × Pt → ℝ × ℝ → V2 F),
        (∀ r : ℝ × ℝ, powersFrom Key G S rx walls ⟨r.1, r.2⟩ = .ok (rx.map fun t => F.fin (value t r))) ∧
        (∀ P : Scene.Grid (ℝ × ℝ), gradientMapTx G S tx rx walls P = .ok (rx.map fun t => (t.1, .gradient (P.map fun row => row.map (gradient t))))) ∧
        ∀ t ∈ rx, ∀ᵐ r : ℝ × ℝ, ∀ᶠ q in 𝓝 r, GradientAt (value t) q (gradient t q) := by
  rcases h.mode with ⟨hh, hk⟩ | ⟨hs, hun, hp, a, ha, hk⟩
  · obtain ⟨L, hL, H⟩ := C105_transmitters (Key := Key) G hG walls h.proper S.lo S.hi h.lo h.some (fun _ _ => []) none S.E h.eps S.ap hh S.tol S.patch S.kw S.kw' hk S.coef S.height h.height
    refine ⟨L, hL, fun tx rx ht ho => ?_⟩
    obtain ⟨value, gradient, h1, h2, h3⟩ := H tx rx ht ho
    refine ⟨value, gradient, fun r => ?_, fun P => (h2 true P).2, h3⟩
    unfold powersFrom
    rw [h1]
    simp [Except.map, Function.comp_def]
  · obtain ⟨L, hL, H⟩ := C103_transmitters (Key := Key) G hG walls h.proper S.lo S.hi h.lo h.some (fun _ _ => []) none S.E h.eps hun S.ap hs S.tol S.patch a hp ha S.kw S.kw' hk S.coef S.height h.height
    refine ⟨L, hL, fun tx rx ht ho => ?_⟩
    obtain ⟨value, gradient, h1, h2, h3⟩ := H tx rx ht ho
    refine ⟨value, gradient, fun r => ?_, fun P => (h2 true P).2, h3⟩
    unfold powersFrom
    rw [h1]
    simp [Except.map, Function.comp_def]

/-- **C140.** The same for the positions of the transmitter. -/
theorem C140_transfer_tx (G : GraphLib) (hG : GraphContract G) (Key : Type) (S S' : PowerSettings) (walls walls' : List (Pt × Pt)) (h : Covered S walls) (h' : Covered S' walls')
    (A : Affine) (hA : A.Invertible) :
    ∃ L L', Lines L ∧ Lines L' ∧ ∀ rx rx' tx tx' : PyDict Pt, Distinct rx → Distinct rx' → (∀ t ∈ rx, OffLines L t.2) → (∀ t ∈ rx', OffLines L' t.2) →
      (∀ᵐ r : ℝ × ℝ, ∀ᶠ q : ℝ × ℝ in 𝓝 r, ∀ zs, powersFrom Key G S rx walls ⟨q.1, q.2⟩ = .ok zs → powersFrom Key G S' rx' walls' (A.app ⟨q.1, q.2⟩) = .ok zs) →
      ∃ gradient gradient' : String × Pt → ℝ × ℝ → V2 F,
        (∀ P, gradientMapTx G S tx rx walls P = .ok (rx.map fun t => (t.1, .gradient (P.map fun row => row.map (gradient t))))) ∧
        (∀ P, gradientMapTx G S' tx' rx' walls' P = .ok (rx'.map fun t => (t.1, .gradient (P.map fun row => row.map (gradient' t))))) ∧
        ∀ (i : ℕ) t t', rx[i]? = some t → rx'[i]? = some t' → ∀ᵐ r : ℝ × ℝ, ∃ d d' : Pt, gradient t r = V2.fin d ∧ gradient' t' (A.pair r) = V2.fin d' ∧ A.Pulls d' d := by
  obtain ⟨L, hL, H⟩ := covered_gradients_tx G hG S walls h Key
  obtain ⟨L', hL', H'⟩ := covered_gradients_tx G hG S' walls' h' Key
  refine ⟨L, L', hL, hL', fun rx rx' tx tx' ht ht' ho ho' hv => ?_⟩
  obtain ⟨v, g, h1, h2, h3⟩ := H tx rx ht ho
  obtain ⟨v', g', h1', h2', h3'⟩ := H' tx' rx' ht' ho'
  refine ⟨g, g', h2, h2', fun i t t' hi hi' => ?_⟩
  have e1 := h3 t (List.mem_of_getElem? hi)
  have e2 := (pair_quasi A hA).ae (h3' t' (List.mem_of_getElem? hi'))
  filter_upwards [e1, e2, hv] with r a1 a2 a3
  refine gradient_pulls A hA (a3.mono fun q hq => ?_) a1.self_of_nhds a2.self_of_nhds
  have hl := h1' (A.pair q)
  have hr := h1 q
  rw [show (⟨(A.pair q).1, (A.pair q).2⟩ : Pt) = A.app ⟨q.1, q.2⟩ from rfl, hq _ hr] at hl
  have := congrArg (fun l : List F => l[i]?) (Except.ok.inj hl)
  simp only [List.getElem?_map, hi, hi', Option.map_some, Option.some.injEq] at this
  exact (F.fin.inj this).symm

/-! ## Motions -/

theorem lines_pull (A : Affine) (hA : A.Invertible) {L : List (Pt × Pt)} (hL : Lines L) :
    ∃ M, Lines M ∧ ∀ t, OffLines M t → OffLines L (A.app t) := by
  have hs : ∀ p : Pt, ∃ q : Pt, A.app q = p := by
    intro p
    have h : A.a * A.d - A.b * A.c ≠ 0 := hA
    refine ⟨⟨(A.d * (p.x - A.tx) - A.b * (p.y - A.ty)) / (A.a * A.d - A.b * A.c), (A.a * (p.y - A.ty) - A.c * (p.x - A.tx)) / (A.a * A.d - A.b * A.c)⟩, ?_⟩
    ext <;> simp only [Affine.app] <;> rw [mul_div_assoc', mul_div_assoc', ← add_div, ← eq_sub_iff_add_eq, div_eq_iff h] <;> ring
  choose inv hinv using hs
  refine ⟨L.map fun l => (inv l.1, inv l.2), ?_, ?_⟩
  · intro l hl
    obtain ⟨l, hm, rfl⟩ := List.mem_map.mp hl
    intro e
    apply hL l hm
    rw [← hinv l.1, ← hinv l.2]
    exact congrArg A.app e
  · intro t ht l hl e
    refine ht _ (List.mem_map_of_mem hl) ?_
    have h : A.a * A.d - A.b * A.c ≠ 0 := hA
    rw [← hinv l.1, ← hinv l.2] at e
    have : side (A.app (inv l.1)) (A.app (inv l.2)) (A.app t) = (A.a * A.d - A.b * A.c) * side (inv l.1) (inv l.2) t := by
      simp only [side, Affine.app]; ring
    rw [this] at e
    exact (mul_eq_zero.mp e).resolve_left h

theorem similarity_invertible {A : Affine} {k : ℝ} (hA : A.Similarity k) : A.Invertible := by
  intro h
  have h1 := hA.col1; have h2 := hA.col2; have h3 := hA.orth; have h4 := hA.pos
  have : (A.a ^ 2 + A.c ^ 2) * (A.b ^ 2 + A.d ^ 2) = (A.a * A.d - A.b * A.c) ^ 2 + (A.a * A.b + A.c * A.d) ^ 2 := by ring
  rw [h1, h2, h, h3] at this
  have : 0 < k ^ 2 * k ^ 2 := by positivity
  linarith

section
variable (G : GraphLib) (hG : GraphContract G) (Key : Type) (S : PowerSettings) (walls walls' : List (Pt × Pt)) (h : Covered S walls) (h' : Covered S walls')
  (A : Affine) (hA : A.Similarity 1) (h1 : A.a + A.b = 1) (h2 : A.c + A.d = 1) (hm : MovedWalls A walls walls')

include hG h hA h1 h2 hm in
/-- Values of a moved scene. -/
theorem moved_values (tx rx : PyDict Pt) (ht : Distinct tx) (hr : Distinct rx) (es : List (String × String × F)) :
    (wallScene (mapPoints A tx) (mapPoints A rx) walls').accumulateOverPaths G (fun _ _ => []) (imageMethod Key) { minOrder := S.lo, maxOrder := S.hi }
        ⟨S.E, F.fin S.tol, F.fin S.patch, S.ap, S.kw'⟩ none (powerFun S.E S.coef S.height) = .ok es ↔
      (wallScene tx rx walls).accumulateOverPaths G (fun _ _ => []) (imageMethod Key) { minOrder := S.lo, maxOrder := S.hi }
        ⟨S.E, F.fin S.tol, F.fin S.patch, S.ap, S.kw'⟩ none (powerFun S.E S.coef S.height) = .ok es := by
  obtain ⟨ws, g1, g2⟩ := hm
  have hr2 := C122_accumulate (Key := Key) G hG (mapPoints A tx) (mapPoints A rx) (mapPoints_distinct A ht) (mapPoints_distinct A hr) _ _ g1 { minOrder := S.lo, maxOrder := S.hi } h.lo rfl
    (fun _ _ => []) none S.E S.ap S.kw' (F.fin S.tol) S.patch (powerFun S.E S.coef S.height) (powerFun_ignoresObjects _ _ _)
  have hp : (wallsOf ws).Perm (wallsOf walls') := g2.map _
  obtain ⟨σ, hσ⟩ := perm_rearranged hp
  rw [← wallScene_objects (mapPoints A tx) (mapPoints A rx) ws] at hσ
  have hr3 := C123_accumulate G hG (wallScene (mapPoints A tx) (mapPoints A rx) ws)
    ⟨⟨_, finPoints_distinct (mapPoints_distinct A ht), rfl⟩, ⟨_, finPoints_distinct (mapPoints_distinct A hr), rfl⟩⟩ σ _ hσ S.lo S.hi h.lo (fun _ _ => []) none (imageMethod Key)
    (fun _ _ _ _ _ => rfl) (onePointEach_image Key) ⟨S.E, F.fin S.tol, F.fin S.patch, S.ap, S.kw'⟩ (powerFun S.E S.coef S.height) es
  rw [withObjects_walls] at hr3
  rw [← hr3, hr2, C124_moved_sums G hG A 1 hA tx rx ht hr walls S.lo S.hi h.lo (fun _ _ => []) none S.E S.ap S.kw' (F.fin S.tol) S.patch _
    (C124_power_diagonal hA h1 h2 S.E S.coef S.height)]

include hG h h' hA h1 h2 hm in
/-- **C140.** So, almost everywhere, the gradients move with the scene, and do not depend on the order of the walls or on the ends from which
they are drawn: for the isometries that keep the direction of the first diagonal (all translations, and mirroring there), which the guard of
`path_length` respects. -/
theorem C140_moved : ∃ L, Lines L ∧ ∀ tx rx rx' : PyDict Pt, Distinct tx → (∀ t ∈ tx, OffLines L t.2) →
      ∃ gradient gradient' : String × Pt → ℝ × ℝ → V2 F,
        (∀ P, gradientMap G S tx rx walls P = .ok (tx.map fun t => (t.1, .gradient (P.map fun row => row.map (gradient t))))) ∧
        (∀ P, gradientMap G S (mapPoints A tx) rx' walls' P = .ok ((mapPoints A tx).map fun t => (t.1, .gradient (P.map fun row => row.map (gradient' t))))) ∧
        ∀ t ∈ tx, ∀ᵐ r : ℝ × ℝ, ∃ d d' : Pt, gradient t r = V2.fin d ∧ gradient' (t.1, A.app t.2) (A.pair r) = V2.fin d' ∧ A.Pulls d' d := by
  obtain ⟨L, L', hL, hL', H⟩ := C140_transfer G hG ℕ S S walls walls' h h' A (similarity_invertible hA)
  obtain ⟨M, hM, hpull⟩ := lines_pull A (similarity_invertible hA) hL'
  refine ⟨L ++ M, lines_append hL hM, fun tx rx rx' ht ho => ?_⟩
  have ht' := mapPoints_distinct A ht
  obtain ⟨g, g', e1, e2, e3⟩ := H tx (mapPoints A tx) rx rx' ht ht' (fun t h => (offLines_append.mp (ho t h)).1) (by
    intro t htm
    obtain ⟨t, hm, rfl⟩ := List.mem_map.mp htm
    exact hpull _ (offLines_append.mp (ho t hm)).2) (by
    refine Eventually.of_forall fun r => Eventually.of_forall fun q zs hz => ?_
    have hv := moved_values G hG ℕ S walls walls' h A hA h1 h2 hm tx [("rx", ⟨q.1, q.2⟩)] ht (by simp [Distinct])
    unfold powersAt at hz ⊢
    cases hx : (wallScene tx [("rx", ⟨q.1, q.2⟩)] walls).accumulateOverPaths G (fun _ _ => []) (imageMethod ℕ) { minOrder := S.lo, maxOrder := S.hi }
        ⟨S.E, F.fin S.tol, F.fin S.patch, S.ap, S.kw'⟩ none (powerFun S.E S.coef S.height) with
    | ok es => rw [hx] at hz; rw [show [("rx", A.app ⟨q.1, q.2⟩)] = mapPoints A [("rx", ⟨q.1, q.2⟩)] from rfl, (hv es).mpr hx]; exact hz
    | error x => rw [hx] at hz; cases hz)
  refine ⟨g, g', e1, e2, fun t htm => ?_⟩
  obtain ⟨i, hi⟩ := List.getElem?_of_mem htm
  exact e3 i t _ hi (by unfold mapPoints; rw [List.getElem?_map, hi]; rfl)

include hG h h' hA h1 h2 hm in
/-- **C140.** The same for the positions of the transmitter. -/
theorem C140_moved_tx : ∃ L, Lines L ∧ ∀ tx tx' rx : PyDict Pt, Distinct rx → (∀ t ∈ rx, OffLines L t.2) →
      ∃ gradient gradient' : String × Pt → ℝ × ℝ → V2 F,
        (∀ P, gradientMapTx G S tx rx walls P = .ok (rx.map fun t => (t.1, .gradient (P.map fun row => row.map (gradient t))))) ∧
        (∀ P, gradientMapTx G S tx' (mapPoints A rx) walls' P = .ok ((mapPoints A rx).map fun t => (t.1, .gradient (P.map fun row => row.map (gradient' t))))) ∧
        ∀ t ∈ rx, ∀ᵐ r : ℝ × ℝ, ∃ d d' : Pt, gradient t r = V2.fin d ∧ gradient' (t.1, A.app t.2) (A.pair r) = V2.fin d' ∧ A.Pulls d' d := by
  obtain ⟨L, L', hL, hL', H⟩ := C140_transfer_tx G hG ℕ S S walls walls' h h' A (similarity_invertible hA)
  obtain ⟨M, hM, hpull⟩ := lines_pull A (similarity_invertible hA) hL'
  refine ⟨L ++ M, lines_append hL hM, fun tx tx' rx ht ho => ?_⟩
  have ht' := mapPoints_distinct A ht
  obtain ⟨g, g', e1, e2, e3⟩ := H rx (mapPoints A rx) tx tx' ht ht' (fun t h => (offLines_append.mp (ho t h)).1) (by
    intro t htm
    obtain ⟨t, hm, rfl⟩ := List.mem_map.mp htm
    exact hpull _ (offLines_append.mp (ho t hm)).2) (by
    refine Eventually.of_forall fun r => Eventually.of_forall fun q zs hz => ?_
    have hv := moved_values G hG ℕ S walls walls' h A hA h1 h2 hm [("tx", ⟨q.1, q.2⟩)] rx (by simp [Distinct]) ht
    unfold powersFrom at hz ⊢
    cases hx : (wallScene [("tx", ⟨q.1, q.2⟩)] rx walls).accumulateOverPaths G (fun _ _ => []) (imageMethod ℕ) { minOrder := S.lo, maxOrder := S.hi }
        ⟨S.E, F.fin S.tol, F.fin S.patch, S.ap, S.kw'⟩ none (powerFun S.E S.coef S.height) with
    | ok es => rw [hx] at hz; rw [show [("tx", A.app ⟨q.1, q.2⟩)] = mapPoints A [("tx", ⟨q.1, q.2⟩)] from rfl, (hv es).mpr hx]; exact hz
    | error x => rw [hx] at hz; cases hz)
  refine ⟨g, g', e1, e2, fun t htm => ?_⟩
  obtain ⟨i, hi⟩ := List.getElem?_of_mem htm
  exact e3 i t _ hi (by unfold mapPoints; rw [List.getElem?_map, hi]; rfl)

end

/-- Non-vacuity: two walls at a right angle in approximate mode, with paths of up to four bounces; the same walls in the other order, one of them
drawn from its other end, moved by (3, 5). -/
example (E : Env) (he : 0 < E.eps) (S : PowerSettings) (hS : S = ⟨0, 4, E, some true, 1 / 100, 0, ⟨F.fin 100, Rev.sigmoid⟩, ⟨F.fin 100, sigmoid⟩, 1 / 2, 1 / 10⟩) :
    Covered S [(⟨0, 0⟩, ⟨1, 0⟩), (⟨0, 0⟩, ⟨0, 1⟩)] ∧ Covered S [(⟨3, 6⟩, ⟨3, 5⟩), (⟨3, 5⟩, ⟨4, 5⟩)] ∧
    (⟨1, 0, 0, 1, 3, 5⟩ : Affine).Similarity 1 ∧ MovedWalls ⟨1, 0, 0, 1, 3, 5⟩ [(⟨0, 0⟩, ⟨1, 0⟩), (⟨0, 0⟩, ⟨0, 1⟩)] [(⟨3, 6⟩, ⟨3, 5⟩), (⟨3, 5⟩, ⟨4, 5⟩)] := by
  subst hS
  have hu : ∀ w1 w2 : Pt × Pt, ¬ Collinear w1 w2 → ¬ Collinear w2 w1 → Untangled [w1, w2] := by
    intro w1 w2 h1 h2 i j w w' hij hi hj
    match i, j with
    | 0, 0 => exact absurd rfl hij
    | 0, 1 => simp at hi hj; subst hi hj; exact h1
    | 1, 0 => simp at hi hj; subst hi hj; exact h2
    | 1, 1 => exact absurd rfl hij
    | 0, j + 2 => simp at hj
    | 1, j + 2 => simp at hj
    | i + 2, _ => simp at hi
  refine ⟨⟨le_rfl, ⟨[], by simp [InRange, IsCandidate]⟩, he, by norm_num, ?_, .inr ⟨.inl rfl, fun _ => hu _ _ ?_ ?_, by norm_num, 100, by norm_num, .inl ⟨rfl, rfl⟩⟩⟩,
    ⟨le_rfl, ⟨[], by simp [InRange, IsCandidate]⟩, he, by norm_num, ?_, .inr ⟨.inl rfl, fun _ => hu _ _ ?_ ?_, by norm_num, 100, by norm_num, .inl ⟨rfl, rfl⟩⟩⟩,
    ⟨one_pos, by norm_num, by norm_num, by norm_num⟩,
    [(⟨3, 5⟩, ⟨4, 5⟩), (⟨3, 6⟩, ⟨3, 5⟩)], .cons (.inl ?_) (.cons (.inr ?_) .nil), List.Perm.swap _ _ _⟩
  · simp
  · norm_num [Collinear, side]
  · norm_num [Collinear, side]
  · simp
  · norm_num [Collinear, side]
  · norm_num [Collinear, side]
  · simp [mapWall, Affine.app]; norm_num
  · simp [mapWall, Affine.app]; norm_num

end DiffeRT2d.Props
