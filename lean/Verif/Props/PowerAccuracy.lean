import Verif.Lemmas.PowerError
import Verif.Props.Accuracy
import Verif.Props.RoundedPower

/-! # Property C118: how accurate the received power is -/

namespace DiffeRT2d.Props
open Classical Spec

/-- The computed length. -/
theorem length32 (b : Bool) (pts : List Pt) (h : ℝ) (h0 : 0 < h) (hw : Within (2 ^ 40) pts) (n : ℕ) (hn : pts.length = n + 1) (hn' : n ≤ 1000) :
    ∃ M : ℝ, float32.pathLength ⟨b, 2 ^ (-23 : ℤ)⟩ (pts.map V2.fin) = F.fin M ∧ 0 ≤ M ∧ M ≤ 2 ^ 59 ∧
      |M - polyLength pts| ≤ (n + 4) * (61 / 1000000000) * polyLength pts + n * (4 / 10000000) / h * h := by
  set E : Env := ⟨b, 2 ^ (-23 : ℤ)⟩ with hE
  have ε0 : 0 ≤ E.eps := (two_zpow_pos _).le
  have ε1 : E.eps ≤ 1 := by show (2 : ℝ) ^ (-23 : ℤ) ≤ 1; norm_num [zpow_neg]
  obtain ⟨M, eM, M0, M1⟩ := f32_length ε0 ε1 pts hw (by omega)
  have hlen := C117_length f32_contract f32_accurate E ε0 pts
  rw [eM] at hlen
  obtain ⟨M', eM', l1, l2⟩ := hlen.resolve_left (by simp)
  obtain rfl := F.fin.inj eM'
  have hnp : pts.length - 1 = n := by omega
  rw [hnp] at l1 l2
  have L0 := polyLength_nonneg pts
  set L := polyLength pts with hL
  have hr : Real.sqrt ((2 : ℝ) ^ (-150 : ℤ)) = 2 ^ (-75 : ℤ) := by
    rw [show ((2 : ℝ) ^ (-150 : ℤ)) = (2 ^ (-75 : ℤ)) ^ 2 by rw [← zpow_natCast, ← zpow_mul]; norm_num]
    exact Real.sqrt_sq (two_zpow_pos _).le
  have hθ : 3 * E.eps + 11 * Real.sqrt ((2 : ℝ) ^ (-150 : ℤ)) ≤ 36 / 100000000 := by
    rw [hr]; show 3 * (2 : ℝ) ^ (-23 : ℤ) + _ ≤ _; norm_num [zpow_neg]
  have hθ0 : 0 ≤ 3 * E.eps + 11 * Real.sqrt ((2 : ℝ) ^ (-150 : ℤ)) := by positivity
  set θ := 3 * E.eps + 11 * Real.sqrt ((2 : ℝ) ^ (-150 : ℤ))
  have hu : (2 : ℝ) ^ (-24 : ℤ) = 1 / 16777216 := by norm_num [zpow_neg]
  have hN : (n : ℝ) ≤ 1000 := by exact_mod_cast hn'
  have N0 : (0 : ℝ) ≤ n := Nat.cast_nonneg n
  obtain ⟨p1, p2⟩ := pow_bounds (u := 2 ^ (-24 : ℤ)) (by rw [hu]; norm_num) (by rw [hu]; norm_num) (n + 4) (by rw [hu]; push_cast; linarith)
  push_cast at p1 p2
  set u : ℝ := 2 ^ (-24 : ℤ) with huu
  have nθ : 0 ≤ (n : ℝ) * θ := mul_nonneg N0 hθ0
  have nθ' : (n : ℝ) * θ ≤ n * (36 / 100000000) := mul_le_mul_of_nonneg_left hθ N0
  -- the length
  set ρ : ℝ := (n + 4) * (61 / 1000000000) with hρ
  set κ : ℝ := n * (4 / 10000000) / h with hκ
  have κh : κ * h = n * (4 / 10000000) := by rw [hκ]; field_simp
  have ρ0 : 0 ≤ ρ := by positivity
  have ρ1 : ρ ≤ 62 / 1000000 := by rw [hρ]; linarith
  have pu : (1 + u) ^ (n + 4) ≤ 1 + ρ := by rw [hu] at p2 ⊢; refine p2.trans ?_; rw [hρ]; linarith
  have pl : 1 - ρ ≤ (1 - u) ^ (n + 4) := by rw [hu] at p1 ⊢; refine le_trans ?_ p1; rw [hρ]; linarith
  generalize (1 + u) ^ (n + 4) = a at l2 pu p2
  generalize (1 - u) ^ (n + 4) = a' at l1 pl p1
  clear_value ρ κ θ L
  refine ⟨M, eM, M0, M1, ?_⟩
  · rw [κh, abs_le]
    constructor
    · have e := mul_le_mul_of_nonneg_right pl L0
      have e' : (1 - ρ) * L = L - ρ * L := by ring
      rw [e'] at e
      linarith
    · have a1 := mul_le_mul_of_nonneg_right pu (add_nonneg L0 nθ)
      have a2 : ρ * (n * θ) ≤ 62 / 1000000 * (n * θ) := mul_le_mul_of_nonneg_right ρ1 nθ
      have e : (1 + ρ) * (L + n * θ) = L + ρ * L + n * θ + ρ * (n * θ) := by ring
      rw [e] at a1
      linarith

/-- The computed power of the coefficient. -/
theorem coef32 (c : ℝ) (c0 : 0 ≤ c) (c1 : c ≤ 1) (n : ℕ) (hn' : n ≤ 1000) :
    ∃ x : ℝ, float32.power (F.fin c) (n - 1) = F.fin x ∧ 0 ≤ x ∧
      |x - c ^ (n - 1)| ≤ ((n - 1 : ℕ) : ℝ) * (61 / 1000000000) * c ^ (n - 1) + 2 * (((n - 1 : ℕ) : ℝ) * 2 ^ (-150 : ℤ)) := by
  have hη0 := two_zpow_pos (-150)
  have hu : (2 : ℝ) ^ (-24 : ℤ) = 1 / 16777216 := by norm_num [zpow_neg]
  have hN : (n : ℝ) ≤ 1000 := by exact_mod_cast hn'
  have K : ((n - 1 : ℕ) : ℝ) ≤ n := by exact_mod_cast Nat.sub_le _ _
  have K0 : (0 : ℝ) ≤ ((n - 1 : ℕ) : ℝ) := Nat.cast_nonneg _
  obtain ⟨q1, q2⟩ := pow_bounds (u := 2 ^ (-24 : ℤ)) (by rw [hu]; norm_num) (by rw [hu]; norm_num) (n - 1) (by rw [hu]; linarith)
  obtain ⟨x, ex, x0, -, x1, x2⟩ := power_error f32_contract f32_accurate c0 c1 (n - 1)
  refine ⟨x, ex, x0, ?_⟩
  have X0 : 0 ≤ c ^ (n - 1) := pow_nonneg c0 _
  set u : ℝ := 2 ^ (-24 : ℤ) with huu
  set η : ℝ := 2 ^ (-150 : ℤ) with hηη
  set k : ℝ := ((n - 1 : ℕ) : ℝ)
  set X := c ^ (n - 1) with hX
  have kη : 0 ≤ k * η := mul_nonneg K0 hη0.le
  have kX : 0 ≤ k * X := mul_nonneg K0 X0
  have u1 : (1 + u) ^ (n - 1) ≤ 1 + k * (61 / 1000000000) := by rw [hu] at q2 ⊢; linarith
  have u2 : 1 - k * (61 / 1000000000) ≤ (1 - u) ^ (n - 1) := by rw [hu] at q1 ⊢; linarith
  generalize (1 + u) ^ (n - 1) = a at x2 u1 q2
  generalize (1 - u) ^ (n - 1) = a' at x1 u2 q1
  clear_value X k η
  rw [abs_le]
  constructor
  · have := mul_le_mul_of_nonneg_right u2 X0
    nlinarith
  · have := mul_le_mul_of_nonneg_right u1 (add_nonneg X0 kη)
    have k2 : k * (k * η) ≤ 1000 * (k * η) := mul_le_mul_of_nonneg_right (by linarith) kη
    nlinarith

/-- **C118.** In `float32`, with its machine epsilon as the guard: the power received along a path of `n ≤ 1000` segments, with
coordinates up to `2 ^ 40`, is a number, off by at most `(n + 5) * 2.5 * 10⁻⁷ + n * 6 * 10⁻⁷ / height` relatively (and `2 ^ -90`, for underflow). -/
theorem C118_power (b : Bool) (pts : List Pt) (loss : F) (c h : ℝ) (c0 : 0 ≤ c) (c1 : c ≤ 1) (h1 : (2 : ℝ) ^ (-20 : ℤ) ≤ h) (h2 : h ≤ 2 ^ 40)
    (hw : Within (2 ^ 40) pts) (n : ℕ) (hn : pts.length = n + 1) (hn' : n ≤ 1000) (hs : n * (4 / 1000000) ≤ h) :
    ∃ v : ℝ, float32.receivedPower ⟨b, 2 ^ (-23 : ℤ)⟩ ⟨pts.map V2.fin, loss⟩ (F.fin c) (F.fin h) = F.fin v ∧ 0 ≤ v ∧
      |v - exactPower c h pts| ≤ ((n + 5) * (25 / 100000000) + n * (6 / 10000000) / h) * exactPower c h pts + 2 ^ (-90 : ℤ) := by
  have hη0 := two_zpow_pos (-150)
  have h0 : 0 < h := (two_zpow_pos _).trans_le h1
  obtain ⟨M, eM, M0, M1, hML⟩ := length32 b pts h h0 hw n hn hn'
  have hu : (2 : ℝ) ^ (-24 : ℤ) = 1 / 16777216 := by norm_num [zpow_neg]
  have hN : (n : ℝ) ≤ 1000 := by exact_mod_cast hn'
  have N0 : (0 : ℝ) ≤ n := Nat.cast_nonneg n
  have hx := coef32 c c0 c1 n hn'
  obtain ⟨x, ex, x0, hx⟩ := hx
  have K : ((n - 1 : ℕ) : ℝ) ≤ n := by exact_mod_cast Nat.sub_le _ _
  have K0 : (0 : ℝ) ≤ ((n - 1 : ℕ) : ℝ) := Nat.cast_nonneg _
  set u : ℝ := 2 ^ (-24 : ℤ) with huu
  set η : ℝ := 2 ^ (-150 : ℤ) with hηη
  set k : ℝ := ((n - 1 : ℕ) : ℝ)
  have L0 := polyLength_nonneg pts
  set L := polyLength pts with hL
  set ρ : ℝ := (n + 4) * (61 / 1000000000) with hρ
  set κ : ℝ := n * (4 / 10000000) / h with hκ
  have ρ0 : 0 ≤ ρ := by positivity
  have κ0 : 0 ≤ κ := by positivity
  have ρ1 : ρ ≤ 62 / 1000000 := by rw [hρ]; linarith
  have κ1 : κ ≤ 1 / 10 := by rw [hκ, div_le_iff₀ h0]; linarith
  clear_value ρ κ L
  -- the denominator
  have hS := denom_real L0 h0 ρ0 (by linarith) κ0 κ1 hML
  obtain ⟨H, eH, H1⟩ := f32_rnd (x := h * h) (B := 2 ^ 80) (by
    rw [abs_of_nonneg (by positivity), show (2 : ℝ) ^ 80 = 2 ^ 40 * 2 ^ 40 by norm_num]; exact mul_le_mul h2 h2 h0.le (by norm_num)) (by norm_num)
  have hM2 : |M * M| ≤ 2 ^ 118 := by
    rw [abs_of_nonneg (by positivity), show (2 : ℝ) ^ 118 = 2 ^ 59 * 2 ^ 59 by norm_num]; exact mul_le_mul M1 M1 M0 (by norm_num)
  obtain ⟨Q, eQ, Q1⟩ := f32_rnd hM2 (by norm_num)
  have hHQ : |H + Q| ≤ 2 ^ 120 := by
    have h3 := abs_add_le H Q
    have e1 : (2 : ℝ) * 2 ^ 80 + 1 + (2 * 2 ^ 118 + 1) ≤ 2 ^ 120 := by norm_num
    linarith
  obtain ⟨D', eD, -⟩ := f32_rnd hHQ le_rfl
  have H0 : 0 ≤ H := by have := rnd_nonneg f32_contract (mul_self_nonneg h); rw [eH, Le.fin] at this; exact this
  have Q0 : 0 ≤ Q := by have := rnd_nonneg f32_contract (mul_self_nonneg M); rw [eQ, Le.fin] at this; exact this
  obtain ⟨r1, r2⟩ := f32_accurate.nonneg (mul_self_nonneg h) eH
  obtain ⟨r3, r4⟩ := f32_accurate.nonneg (mul_self_nonneg M) eQ
  obtain ⟨r5, r6⟩ := f32_accurate.nonneg (add_nonneg H0 Q0) eD
  have hh : (2 : ℝ) ^ (-40 : ℤ) ≤ h ^ 2 := by
    rw [show (2 : ℝ) ^ (-40 : ℤ) = 2 ^ (-20 : ℤ) * 2 ^ (-20 : ℤ) by rw [← zpow_add₀ (by norm_num)]; norm_num, sq]
    exact mul_le_mul h1 h1 (two_zpow_pos _).le h0.le
  have hS0 : (2 : ℝ) ^ (-40 : ℤ) ≤ h ^ 2 + M ^ 2 := le_add_of_le_of_nonneg hh (sq_nonneg M)
  have hDh : |D' - (h ^ 2 + M ^ 2)| ≤ 3 * u * (h ^ 2 + M ^ 2) := by
    refine denom_round (by rw [hu]; norm_num) (by rw [hu]; norm_num) (h * h) (M * M) (by ring) r1 r2 r3 r4 r5 r6 ?_ (by positivity) hη0.le
    have : (1 / 100 * u) * 2 ^ (-40 : ℤ) ≤ 1 / 100 * u * (h ^ 2 + M ^ 2) := mul_le_mul_of_nonneg_left hS0 (by rw [hu]; norm_num)
    refine le_trans ?_ this
    rw [hu]; norm_num [zpow_neg]
  have D0 : 0 < h ^ 2 + L ^ 2 := by positivity
  set D := h ^ 2 + L ^ 2 with hD
  clear_value D
  have hDD : |D' - D| ≤ (2.1 * ρ + 1.2 * κ + 4 * u) * D := by
    exact denom_both (by rw [hu]; norm_num) D0 (by linarith) (by linarith) hS hDh
  -- the coefficient
  have X0 : 0 ≤ c ^ (n - 1) := pow_nonneg c0 _
  have X1 : c ^ (n - 1) ≤ 1 := pow_le_one₀ c0 c1
  set X := c ^ (n - 1) with hX
  have kη : 0 ≤ k * η := mul_nonneg K0 hη0.le
  -- the quotient
  have D'0 : 0 < D' := by
    have := (abs_le.mp hDD).1
    have : (2.1 * ρ + 1.2 * κ + 4 * u) * D ≤ 0.5 * D := mul_le_mul_of_nonneg_right (by rw [hu]; linarith) D0.le
    linarith
  have xle : x ≤ 2 := by
    have := (abs_le.mp hx).2
    have e1 : k * (61 / 1000000000) * X ≤ 1 / 2 := by nlinarith
    have e2 : k * η ≤ 1 / 8 := by
      have : k * η ≤ 1000 * η := mul_le_mul_of_nonneg_right (by linarith) hη0.le
      refine this.trans ?_
      rw [hηη]; norm_num [zpow_neg]
    linarith
  have Dlow : (2 : ℝ) ^ (-42 : ℤ) ≤ D' := by
    have a1 := (abs_le.mp hDD).1
    have a2 : (2.1 * ρ + 1.2 * κ + 4 * u) * D ≤ 0.5 * D := mul_le_mul_of_nonneg_right (by rw [hu]; linarith) D0.le
    have a3 : (2 : ℝ) ^ (-40 : ℤ) ≤ D := by rw [hD]; exact le_add_of_le_of_nonneg hh (sq_nonneg L)
    have a4 : (2 : ℝ) ^ (-42 : ℤ) ≤ 0.5 * 2 ^ (-40 : ℤ) := by norm_num [zpow_neg]
    have a5 : 0.5 * D ≤ D' := by clear a3 a4; linarith
    exact a4.trans ((mul_le_mul_of_nonneg_left a3 (by norm_num)).trans a5)
  obtain ⟨v, ev, -⟩ := f32_rnd (x := x / D') (B := 2 ^ 43) (by
    rw [abs_of_nonneg (div_nonneg x0 D'0.le), div_le_iff₀ D'0]
    have : (2 : ℝ) ^ 43 * 2 ^ (-42 : ℤ) ≤ 2 ^ 43 * D' := mul_le_mul_of_nonneg_left Dlow (by norm_num)
    have e : (2 : ℝ) ^ 43 * 2 ^ (-42 : ℤ) = 2 := by norm_num [zpow_neg]
    linarith) (by norm_num)
  have hv := f32_accurate.nonneg (div_nonneg x0 D'0.le) ev
  have v0 : 0 ≤ v := by have := rnd_nonneg f32_contract (div_nonneg x0 D'0.le); rw [ev, Le.fin] at this; exact this
  refine ⟨v, ?_, v0, ?_⟩
  · have e1 : float32.mul (F.fin h) (F.fin h) = F.fin H := eH
    have e2 : float32.mul (F.fin M) (F.fin M) = F.fin Q := eQ
    have e3 : float32.add (F.fin H) (F.fin Q) = F.fin D' := eD
    have e4 : (pts.map V2.fin).length - 2 = n - 1 := by rw [List.length_map]; omega
    simp only [FloatOps.receivedPower, eM, e1, e2, e3, e4, ex]
    rw [FloatOps.div, F.fin_div _ D'0.ne']; exact ev
  · have eP : exactPower c h pts = X / D := by
      rw [exactPower, show pts.length - 2 = n - 1 by omega, ← hL, ← hD]
    rw [eP]
    have P0 : 0 ≤ X / D := div_nonneg X0 D0.le
    refine (quot_real (u := u) (η := η) (by rw [hu]; norm_num) (by rw [hu]; norm_num) X0 x0 D0 (by rw [hu]; linarith) (by rw [hu]; linarith) (by linarith) (by linarith) (by linarith) hη0.le hDD hx hv.1 hv.2).trans ?_
    refine add_le_add (mul_le_mul_of_nonneg_right ?_ P0) ?_
    · have e : n * (6 / 10000000) / h = 1.5 * κ := by rw [hκ]; ring
      rw [e, hu, hρ]
      linarith
    · have s1 : 2 * (k * η) / D ≤ 2 * (1000 * η) / 2 ^ (-40 : ℤ) := by
        refine div_le_div₀ (by linarith) ?_ (two_zpow_pos _) (by rw [hD]; exact le_add_of_le_of_nonneg hh (sq_nonneg L))
        have : k * η ≤ 1000 * η := mul_le_mul_of_nonneg_right (by linarith) hη0.le
        linarith
      have s2 : 2 * (2 * (1000 * η) / 2 ^ (-40 : ℤ)) + η ≤ 2 ^ (-90 : ℤ) := by rw [hηη]; norm_num [zpow_neg]
      linarith

/-- The number of points of a traced path. -/
theorem imagePath_length (A : FloatOps) (tx rx : V2 F) (ws : List Wall) : (A.imagePath tx ws rx).xys.length = ws.length + 2 := by
  cases ws with
  | nil => rfl
  | cons w ws =>
    simp only [FloatOps.imagePath, List.cons_append, List.length_cons, List.length_append, List.length_nil, length_backward, List.length_zip, length_images]
    simp

/-- The exact power of a path is between 0 and `1 / height²`. -/
theorem exactPower_le {c h : ℝ} (c0 : 0 ≤ c) (c1 : c ≤ 1) (h1 : (2 : ℝ) ^ (-20 : ℤ) ≤ h) (pts : List Pt) : 0 ≤ exactPower c h pts ∧ exactPower c h pts ≤ 2 ^ 40 := by
  have h0 : 0 < h := (two_zpow_pos _).trans_le h1
  have D0 : 0 < h ^ 2 + polyLength pts ^ 2 := by positivity
  have hh : (2 : ℝ) ^ (-40 : ℤ) ≤ h ^ 2 + polyLength pts ^ 2 := by
    refine le_add_of_le_of_nonneg ?_ (sq_nonneg _)
    rw [show (2 : ℝ) ^ (-40 : ℤ) = 2 ^ (-20 : ℤ) * 2 ^ (-20 : ℤ) by rw [← zpow_add₀ (by norm_num)]; norm_num, sq]
    exact mul_le_mul h1 h1 (two_zpow_pos _).le h0.le
  refine ⟨div_nonneg (pow_nonneg c0 _) D0.le, ?_⟩
  rw [exactPower, div_le_iff₀ D0]
  have h2 := mul_le_mul_of_nonneg_left hh (show (0 : ℝ) ≤ 2 ^ 40 by norm_num)
  have e : (2 : ℝ) ^ 40 * 2 ^ (-40 : ℤ) = 1 := by norm_num [zpow_neg]
  rw [e] at h2
  exact (pow_le_one₀ c0 c1).trans h2

section field
variable {b : Bool} {ap : Option Bool} {kw : ActKw} {tx rx : V2 F} {walls : List Wall} {tol patch : F}

/-- **C118.** In `float32`, the power accumulated over up to 80000 path candidates is the sum, over the candidates, of the power that
the traced path receives in exact arithmetic, weighted by its validity, up to the errors of the terms and `8 * 10⁻⁸` for each addition. -/
theorem C118_field (hk : FloatStep kw) (c h : ℝ) (c0 : 0 ≤ c) (c1 : c ≤ 1) (h1 : (2 : ℝ) ^ (-20 : ℤ) ≤ h) (h2 : h ≤ 2 ^ 40)
    (cs : List (List ℤ)) (path : List ℤ → List Pt) (loss : List ℤ → F) (N : ℕ) (hN : N ≤ 1000) (hs : N * (4 / 1000000) ≤ h) (hm : cs.length ≤ 80000)
    (hp : ∀ k ∈ cs, float32.imagePath tx (FloatOps.interacting walls k) rx = ⟨(path k).map V2.fin, loss k⟩ ∧ Within (2 ^ 40) (path k) ∧ (path k).length ≤ N + 1) :
    ∃ valid : List ℤ → ℝ,
      (∀ k ∈ cs, ∃ d, float32.validity ⟨b, 2 ^ (-23 : ℤ)⟩ tx rx walls k tol patch ap kw = .ok d ∧ d.toF = F.fin (valid k) ∧ 0 ≤ valid k ∧ valid k ≤ 1) ∧
      ∃ v : ℝ, float32.accumulate ⟨b, 2 ^ (-23 : ℤ)⟩ tx rx walls tol patch ap kw (F.fin c) (F.fin h) 0 cs = .ok (F.fin v) ∧
        |v - (cs.map fun k => valid k * exactPower c h (path k)).sum| ≤
          ((N + 5) * (25 / 100000000) + N * (6 / 10000000) / h + (cs.length + 1) * (8 / 100000000)) * (cs.map fun k => valid k * exactPower c h (path k)).sum
            + cs.length * 2 ^ (-88 : ℤ) := by
  have h0 : 0 < h := (two_zpow_pos _).trans_le h1
  have hv : ∀ k : List ℤ, ∃ q : ℝ, k ∈ cs → ∃ d, float32.validity ⟨b, 2 ^ (-23 : ℤ)⟩ tx rx walls k tol patch ap kw = .ok d ∧ d.toF = F.fin q ∧ 0 ≤ q ∧ q ≤ 1 := by
    intro k
    by_cases hkc : k ∈ cs
    · obtain ⟨d, e, q, e', q0, q1⟩ := validity_range (E := ⟨b, 2 ^ (-23 : ℤ)⟩) (ap := ap) f32_contract hk tx rx walls k tol patch ⟨path k, loss k, (hp k hkc).1⟩
      exact ⟨q, fun _ => ⟨d, e, e', q0, q1⟩⟩
    · exact ⟨0, fun h => absurd h hkc⟩
  choose valid hval using hv
  refine ⟨valid, hval, ?_⟩
  set R : ℝ := (N + 5) * (25 / 100000000) + N * (6 / 10000000) / h with hR
  have N0 : (0 : ℝ) ≤ N := Nat.cast_nonneg N
  have N1 : (N : ℝ) ≤ 1000 := by exact_mod_cast hN
  have R0 : 0 ≤ R := by positivity
  have R1 : R ≤ 1 / 5 := by
    have : N * (6 / 10000000) / h ≤ 16 / 100 := by rw [div_le_iff₀ h0]; linarith
    rw [hR]; linarith
  have hw : ∀ k ∈ cs, ∃ w : ℝ, float32.receivedPower ⟨b, 2 ^ (-23 : ℤ)⟩ (float32.imagePath tx (FloatOps.interacting walls k) rx) (F.fin c) (F.fin h) = F.fin w ∧ 0 ≤ w ∧
      |w - exactPower c h (path k)| ≤ R * exactPower c h (path k) + 2 ^ (-90 : ℤ) := by
    intro k hkc
    obtain ⟨e, hb, hl⟩ := hp k hkc
    have hlen : (path k).length = (FloatOps.interacting walls k).length + 2 := by
      rw [← imagePath_length float32 tx rx, e]; simp
    have hle : (((FloatOps.interacting walls k).length + 1 : ℕ) : ℝ) ≤ N := by exact_mod_cast (show (FloatOps.interacting walls k).length + 1 ≤ N by omega)
    obtain ⟨w, ew, w0, hw⟩ := C118_power b (path k) (loss k) c h c0 c1 h1 h2 hb ((FloatOps.interacting walls k).length + 1) (by omega) (by omega)
      (le_trans (mul_le_mul_of_nonneg_right hle (by norm_num)) hs)
    refine ⟨w, by rw [e]; exact ew, w0, hw.trans (add_le_add (mul_le_mul_of_nonneg_right ?_ (exactPower_le c0 c1 h1 _).1) le_rfl)⟩
    rw [hR]
    refine add_le_add (by linarith) (div_le_div_of_nonneg_right (by linarith) h0.le)
  have hu : (2 : ℝ) ^ (-24 : ℤ) = 1 / 16777216 := by norm_num [zpow_neg]
  have u0 : (0 : ℝ) ≤ 2 ^ (-24 : ℤ) := (two_zpow_pos _).le
  have u1 : (2 : ℝ) ^ (-24 : ℤ) ≤ 1 / 8 := by rw [hu]; norm_num
  have z0 : (0 : ℝ) ≤ 2 ^ (-90 : ℤ) := (two_zpow_pos _).le
  have η0 : (0 : ℝ) ≤ 2 ^ (-150 : ℤ) := (two_zpow_pos _).le
  have ηz : (2 : ℝ) ^ (-150 : ℤ) ≤ 2 ^ (-90 : ℤ) / 4 := by norm_num [zpow_neg]
  have z1 : (2 : ℝ) ^ (-90 : ℤ) ≤ 1 := by norm_num [zpow_neg]
  have η1 : (2 : ℝ) ^ (-150 : ℤ) ≤ 1 := by norm_num [zpow_neg]
  have key : ∀ (ks : List (List ℤ)), (∀ k ∈ ks, k ∈ cs) → ∀ a : ℝ, 0 ≤ a → a + ks.length * 2 ^ 45 ≤ 2 ^ 65 →
      ∃ v : ℝ, float32.accumulate ⟨b, 2 ^ (-23 : ℤ)⟩ tx rx walls tol patch ap kw (F.fin c) (F.fin h) (F.fin a) ks = .ok (F.fin v) ∧
        (1 - 2 ^ (-24 : ℤ)) ^ ks.length * (a + (1 - 2 ^ (-24 : ℤ)) * (1 - R) * (ks.map fun k => valid k * exactPower c h (path k)).sum) - ks.length * (3 * 2 ^ (-90 : ℤ)) ≤ v ∧
        v ≤ (1 + 2 ^ (-24 : ℤ)) ^ ks.length * (a + (1 + 2 ^ (-24 : ℤ)) * (1 + R) * (ks.map fun k => valid k * exactPower c h (path k)).sum + ks.length * (3 * 2 ^ (-90 : ℤ))) := by
    intro ks
    induction ks with
    | nil => intro _ a _ _; exact ⟨a, rfl, by simp, by simp⟩
    | cons k ks ih =>
      intro hsub a a0 ha
      obtain ⟨d, ed, eq, q0, q1⟩ := hval k (hsub k (by simp))
      obtain ⟨w, ew, w0, hwb⟩ := hw k (hsub k (by simp))
      obtain ⟨P0, P1⟩ := exactPower_le c0 c1 h1 (path k)
      set q := valid k
      set P := exactPower c h (path k)
      have wle : w ≤ 2 ^ 42 := by
        have := (abs_le.mp hwb).2
        have e : R * P ≤ 1 / 5 * P := mul_le_mul_of_nonneg_right R1 P0
        clear_value P
        have : w ≤ P + 1 / 5 * P + 1 := by linarith
        linarith
      have qw0 : 0 ≤ q * w := mul_nonneg q0 w0
      have qw : q * w ≤ 2 ^ 42 := (mul_le_of_le_one_left w0 q1).trans wle
      obtain ⟨t, et, tb⟩ := f32_rnd (x := q * w) (B := 2 ^ 42) (by rw [abs_of_nonneg qw0]; exact qw) (by norm_num)
      obtain ⟨t1, t2⟩ := f32_accurate.nonneg qw0 et
      have t0 : 0 ≤ t := by have := rnd_nonneg f32_contract qw0; rw [et, Le.fin] at this; exact this
      have tle : t ≤ 2 ^ 44 := (le_abs_self t).trans (tb.trans (by norm_num))
      simp only [List.length_cons, Nat.cast_succ] at ha
      have ks0 : (0 : ℝ) ≤ ks.length := Nat.cast_nonneg _
      have at1 : a + t ≤ 2 ^ 65 := by linarith
      obtain ⟨a', ea, -⟩ := f32_rnd (x := a + t) (B := 2 ^ 65) (by rw [abs_of_nonneg (add_nonneg a0 t0)]; exact at1) (by norm_num)
      obtain ⟨b1, b2⟩ := f32_accurate.nonneg (add_nonneg a0 t0) ea
      have a'0 : 0 ≤ a' := by have := rnd_nonneg f32_contract (add_nonneg a0 t0); rw [ea, Le.fin] at this; exact this
      have a'le : a' ≤ a + 2 ^ 45 := by
        have h3 : (2 : ℝ) ^ (-24 : ℤ) * (a + t) ≤ 2 ^ 42 := by
          have := mul_le_mul_of_nonneg_left at1 u0
          refine this.trans (by norm_num [zpow_neg])
        have e : (1 + (2 : ℝ) ^ (-24 : ℤ)) * (a + t) = a + t + 2 ^ (-24 : ℤ) * (a + t) := by ring
        rw [e] at b2
        linarith
      obtain ⟨v, ev, v1, v2⟩ := ih (fun k hk => hsub k (by simp [hk])) a' a'0 (by linarith)
      obtain ⟨s1, s2⟩ := acc_step u0 u1 q0 q1 z0 a0 hwb η0 ηz t1 t2 b1 b2
      refine ⟨v, ?_, ?_, ?_⟩
      · have e1 : float32.mul d.toF (float32.receivedPower ⟨b, 2 ^ (-23 : ℤ)⟩ (float32.imagePath tx (FloatOps.interacting walls k) rx) (F.fin c) (F.fin h)) = F.fin t := by
          rw [ew, eq]; exact et
        have e2 : float32.add (F.fin a) (F.fin t) = F.fin a' := ea
        rw [FloatOps.accumulate, ed]
        show FloatOps.accumulate _ _ _ _ _ _ _ _ _ _ _ _ _ = _
        rw [e1, e2, ev]
      · simp only [List.length_cons, List.map_cons, List.sum_cons, Nat.cast_succ]
        refine le_trans ?_ v1
        have k0 : 0 ≤ (1 - (2 : ℝ) ^ (-24 : ℤ)) ^ ks.length := pow_nonneg (sub_nonneg.mpr (u1.trans (by norm_num))) _
        have k1 : (1 - (2 : ℝ) ^ (-24 : ℤ)) ^ ks.length ≤ 1 := pow_le_one₀ (sub_nonneg.mpr (u1.trans (by norm_num))) (sub_le_self _ u0)
        have S0 : 0 ≤ (ks.map fun k => valid k * exactPower c h (path k)).sum := by
          refine List.sum_nonneg fun x hx => ?_
          obtain ⟨k', hk', rfl⟩ := List.mem_map.mp hx
          obtain ⟨-, -, -, q0', -⟩ := hval k' (hsub k' (by simp [hk']))
          exact mul_nonneg q0' (exactPower_le c0 c1 h1 _).1
        exact acc_low u0 u1 (by linarith) k0 k1 z0 S0 s1 rfl rfl
      · simp only [List.length_cons, List.map_cons, List.sum_cons, Nat.cast_succ]
        refine v2.trans ?_
        have k0 : 0 ≤ (1 + (2 : ℝ) ^ (-24 : ℤ)) ^ ks.length := pow_nonneg (add_nonneg zero_le_one u0) _
        have S0 : 0 ≤ (ks.map fun k => valid k * exactPower c h (path k)).sum := by
          refine List.sum_nonneg fun x hx => ?_
          obtain ⟨k', hk', rfl⟩ := List.mem_map.mp hx
          obtain ⟨-, -, -, q0', -⟩ := hval k' (hsub k' (by simp [hk']))
          exact mul_nonneg q0' (exactPower_le c0 c1 h1 _).1
        exact acc_up u0 R0 k0 z0 S0 ks0 s2
  have hml : (cs.length : ℝ) ≤ 80000 := by exact_mod_cast hm
  obtain ⟨v, ev, v1, v2⟩ := key cs (fun _ h => h) 0 le_rfl (by rw [zero_add]; exact (mul_le_mul_of_nonneg_right hml (show (0 : ℝ) ≤ 2 ^ 45 by norm_num)).trans (by norm_num))
  refine ⟨v, by rw [F.zero_eq]; exact ev, ?_⟩
  have S0 : 0 ≤ (cs.map fun k => valid k * exactPower c h (path k)).sum := by
    refine List.sum_nonneg fun x hx => ?_
    obtain ⟨k', hk', rfl⟩ := List.mem_map.mp hx
    obtain ⟨-, -, -, q0', -⟩ := hval k' hk'
    exact mul_nonneg q0' (exactPower_le c0 c1 h1 _).1
  rw [zero_add] at v1 v2
  have := acc_final (k := cs.length) rfl hu R0 R1 S0 z0 hml v1 v2
  have e : (2 : ℝ) ^ (-88 : ℤ) = 4 * 2 ^ (-90 : ℤ) := by norm_num [zpow_neg]
  rw [e]
  exact this

end field

/-- Small integers are numbers of `float32`. -/
theorem f32_int (k : ℤ) (hk : |k| ≤ 6) : float32.rnd (k : ℝ) = F.fin k := by
  have := f32_contract.halves (2 * k) (by rw [abs_mul]; norm_num; omega)
  push_cast at this
  rwa [mul_div_cancel_left₀ _ (by norm_num)] at this
/-- A reflection computed in `float32`. -/
theorem reflected32 : ∃ loss, float32.imagePath (V2.fin ⟨0, 1⟩) (FloatOps.interacting [⟨V2.fin ⟨0, 0⟩, V2.fin ⟨2, 0⟩⟩] [0]) (V2.fin ⟨2, 1⟩) = ⟨[⟨0, 1⟩, ⟨1, 0⟩, ⟨2, 1⟩].map V2.fin, loss⟩ := by
  have r0 : float32.rnd 0 = F.fin 0 := by simpa using f32_int 0 (by norm_num)
  have r1 : float32.rnd 1 = F.fin 1 := by simpa using f32_int 1 (by norm_num)
  have r2 : float32.rnd 2 = F.fin 2 := by simpa using f32_int 2 (by norm_num)
  have r4 : float32.rnd 4 = F.fin 4 := by simpa using f32_int 4 (by norm_num)
  have s1 : float32.rnd (-1) = F.fin (-1) := by simpa using f32_int (-1) (by norm_num)
  have s2 : float32.rnd (-2) = F.fin (-2) := by simpa using f32_int (-2) (by norm_num)
  have q4 : Real.sqrt 4 = 2 := by rw [show (4 : ℝ) = 2 ^ 2 by norm_num]; exact Real.sqrt_sq (by norm_num)
  have sub : ∀ x y : ℝ, float32.sub (F.fin x) (F.fin y) = float32.rnd (x - y) := fun x y => by rw [FloatOps.sub, F.fin_sub]; rfl
  have add : ∀ x y : ℝ, float32.add (F.fin x) (F.fin y) = float32.rnd (x + y) := fun x y => rfl
  have mul : ∀ x y : ℝ, float32.mul (F.fin x) (F.fin y) = float32.rnd (x * y) := fun x y => rfl
  have div : ∀ x y : ℝ, y ≠ 0 → float32.div (F.fin x) (F.fin y) = float32.rnd (x / y) := fun x y h => by rw [FloatOps.div, F.fin_div _ h]; rfl
  have neg : ∀ x : ℝ, -(F.fin x) = F.fin (-x) := fun x => rfl
  have hT : float32.wallT ⟨V2.fin ⟨0, 0⟩, V2.fin ⟨2, 0⟩⟩ = V2.fin ⟨2, 0⟩ := by
    simp only [FloatOps.wallT, FloatOps.vsub, V2.fin, sub, sub_zero, r0, r2]
  have hn : float32.wallNormal ⟨V2.fin ⟨0, 0⟩, V2.fin ⟨2, 0⟩⟩ = V2.fin ⟨0, -1⟩ := by
    have hl : float32.vnorm ⟨F.fin 0, F.fin (-2)⟩ = F.fin 2 := by
      rw [FloatOps.vnorm]
      simp only [mul, mul_zero, r0]
      rw [show (-2 : ℝ) * -2 = 4 by norm_num, r4, add, zero_add, r4, FloatOps.sqrt, F.sqrt_fin (by norm_num), q4]
      exact r2
    rw [FloatOps.wallNormal, hT]
    simp only [V2.fin, neg, FloatOps.normalize, hl]
    have e : F.eq (F.fin 2) 0 = false := by rw [F.zero_eq]; simp [F.eq]
    rw [e]
    simp only [F.where_, FloatOps.vsdiv]
    norm_num [div, r0, s1]
  have hi : FloatOps.interacting [⟨V2.fin ⟨0, 0⟩, V2.fin ⟨2, 0⟩⟩] [0] = [(⟨V2.fin ⟨0, 0⟩, V2.fin ⟨2, 0⟩⟩ : Wall)] := rfl
  have him : float32.wallImageOf ⟨V2.fin ⟨0, 0⟩, V2.fin ⟨2, 0⟩⟩ (V2.fin ⟨0, 1⟩) = V2.fin ⟨0, -1⟩ := by
    rw [FloatOps.wallImageOf, hn]
    have e2 : (2 : F) = F.fin 2 := rfl
    simp only [FloatOps.vsub, FloatOps.vdot, FloatOps.vsmul, V2.fin, e2, sub]
    norm_num [sub, mul, add, r0, r1, r2, s1, s2]
  have hb : float32.backStep ⟨V2.fin ⟨0, 0⟩, V2.fin ⟨2, 0⟩⟩ (V2.fin ⟨0, -1⟩) (V2.fin ⟨2, 1⟩) = V2.fin ⟨1, 0⟩ := by
    rw [FloatOps.backStep, hn]
    have e : F.eq (F.fin (-2)) 0 = false := by rw [F.zero_eq]; simp [F.eq]
    simp only [FloatOps.vsub, FloatOps.vdot, FloatOps.vsmul, FloatOps.vsdiv, FloatOps.vadd, V2.fin, sub]
    norm_num [sub, mul, add, div, r0, r1, r2, s1, s2, e, F.where_]
  rw [hi]
  simp only [FloatOps.imagePath, FloatOps.images, List.zip_cons_cons, List.zip_nil_right, FloatOps.backward, him, List.headD_nil, hb]
  exact ⟨_, rfl⟩

/-- The hypotheses hold of that reflection and the line of sight, with the default height and coefficient. -/
example : ∃ (path : List ℤ → List Pt) (loss : List ℤ → F), (∀ k ∈ [[], [0]], float32.imagePath (V2.fin ⟨0, 1⟩) (FloatOps.interacting [⟨V2.fin ⟨0, 0⟩, V2.fin ⟨2, 0⟩⟩] k) (V2.fin ⟨2, 1⟩) =
      ⟨(path k).map V2.fin, loss k⟩ ∧ Within (2 ^ 40) (path k) ∧ (path k).length ≤ 2 + 1) ∧ (2 : ℝ) ^ (-20 : ℤ) ≤ 1 / 10 ∧ (2 : ℕ) * (4 / 1000000) ≤ (1 / 10 : ℝ) ∧ exactPower (1 / 2) (1 / 10) (path [0]) ≠ 0 := by
  obtain ⟨l, hl⟩ := reflected32
  refine ⟨fun k => if k = [] then [⟨0, 1⟩, ⟨2, 1⟩] else [⟨0, 1⟩, ⟨1, 0⟩, ⟨2, 1⟩], fun k => if k = [] then 0 else l, ?_, by norm_num [zpow_neg], by norm_num, ?_⟩
  · intro k hk
    simp only [List.mem_cons, List.not_mem_nil, or_false] at hk
    rcases hk with rfl | rfl
    · refine ⟨rfl, ?_, by simp⟩
      intro p hp
      simp only [if_true, List.mem_cons, List.not_mem_nil, or_false] at hp
      rcases hp with rfl | rfl <;> norm_num
    · refine ⟨by simpa using hl, ?_, by simp⟩
      intro p hp
      simp only [List.cons_ne_nil, if_false, List.mem_cons, List.not_mem_nil, or_false] at hp
      rcases hp with rfl | rfl | rfl <;> norm_num
  · rw [exactPower]
    exact (div_pos (by positivity) (by positivity)).ne'

end DiffeRT2d.Props
