import Verif.Lemmas.Rounded

/-! # IEEE binary formats satisfy the contract -/

namespace DiffeRT2d
open Classical Spec

theorem roundEven_le (x : ℝ) : ⌊x⌋ ≤ roundEven x ∧ roundEven x ≤ ⌊x⌋ + 1 := by
  unfold roundEven; split_ifs <;> omega

theorem roundEven_int (n : ℤ) : roundEven (n : ℝ) = n := by simp [roundEven]

theorem roundEven_mono {x y : ℝ} (h : x ≤ y) : roundEven x ≤ roundEven y := by
  rcases (Int.floor_mono h).lt_or_eq with hl | he
  · have := (roundEven_le x).2; have := (roundEven_le y).1; omega
  · have hf : Int.fract x ≤ Int.fract y := by
      have h1 := Int.floor_add_fract x; have h2 := Int.floor_add_fract y
      rw [he] at h1; linarith
    unfold roundEven
    rw [he]
    split_ifs with h1 h2 h2
    · exact le_rfl
    · omega
    · exfalso
      apply h1
      rcases h2 with h2 | ⟨h2, h3⟩
      · left; linarith
      · rcases hf.lt_or_eq with h4 | h4
        · left; linarith
        · right; exact ⟨h4.trans h2, h3⟩
    · exact le_rfl

theorem roundEven_neg (x : ℝ) : roundEven (-x) = -roundEven x := by
  by_cases h0 : Int.fract x = 0
  · obtain ⟨n, rfl⟩ : ∃ n : ℤ, x = n := ⟨⌊x⌋, by have := Int.floor_add_fract x; rw [h0] at this; linarith⟩
    rw [← Int.cast_neg, roundEven_int, roundEven_int]
  · have hf : Int.fract (-x) = 1 - Int.fract x := Int.fract_neg h0
    have hfl : ⌊-x⌋ = -⌊x⌋ - 1 := by
      have h1 := Int.floor_add_fract x; have h2 := Int.floor_add_fract (-x)
      have : ((⌊-x⌋ : ℤ) : ℝ) = ((-⌊x⌋ - 1 : ℤ) : ℝ) := by push_cast; linarith
      exact_mod_cast this
    have hev : Even (-⌊x⌋ - 1) ↔ ¬ Even ⌊x⌋ := by
      rw [Int.even_sub, even_neg]; simp
    unfold roundEven
    simp only [hf, hfl, hev]
    rcases lt_trichotomy (Int.fract x) (1 / 2) with h | h | h
    · rw [if_neg (by rintro (h' | ⟨h', -⟩) <;> linarith), if_pos (.inl h)]; ring
    · by_cases he : Even ⌊x⌋
      · rw [if_neg (by rintro (h' | ⟨h', h''⟩); · linarith
                       · exact h'' he), if_pos (.inr ⟨h, he⟩)]; ring
      · rw [if_pos (.inr ⟨by linarith, he⟩), if_neg (by rintro (h' | ⟨h', h''⟩); · linarith
                                                        · exact he h'')]; ring
    · rw [if_pos (.inl (by linarith)), if_neg (by rintro (h' | ⟨h', -⟩) <;> linarith)]; ring

variable {p : ℕ} {emin emax : ℤ}

theorem ulpExp_neg (x : ℝ) : ulpExp p emin (-x) = ulpExp p emin x := by simp [ulpExp]
theorem nearest_neg (x : ℝ) : nearest p emin (-x) = -nearest p emin x := by
  unfold nearest
  rw [ulpExp_neg, neg_div, roundEven_neg]; push_cast; ring

theorem two_zpow_pos (e : ℤ) : (0 : ℝ) < 2 ^ e := zpow_pos (by norm_num) e

/-- Numbers that are an integer number of units in the last place are not changed. -/
theorem nearest_of_int (x : ℝ) (n : ℤ) (h : x = n * 2 ^ ulpExp p emin x) : nearest p emin x = x := by
  unfold nearest
  have : x / 2 ^ ulpExp p emin x = n := by
    rw [div_eq_iff (two_zpow_pos _).ne']; exact h
  rw [this, roundEven_int]; exact h.symm

theorem nearest_zero : nearest p emin 0 = 0 := nearest_of_int 0 0 (by simp)

theorem nearest_nonneg {x : ℝ} (hx : 0 ≤ x) : 0 ≤ nearest p emin x := by
  unfold nearest
  have h := roundEven_mono (div_nonneg hx (two_zpow_pos (ulpExp p emin x)).le)
  have h0 : roundEven (0 : ℝ) = 0 := by simpa using roundEven_int 0
  rw [h0] at h
  exact mul_nonneg (by exact_mod_cast h) (two_zpow_pos _).le

theorem nearest_mono_nonneg (hp : 1 ≤ p) {x y : ℝ} (hx : 0 ≤ x) (h : x ≤ y) : nearest p emin x ≤ nearest p emin y := by
  rcases hx.eq_or_lt with rfl | hx
  · rw [nearest_zero]; exact nearest_nonneg h
  have hy : 0 < y := hx.trans_le h
  have hlog : Int.log 2 x ≤ Int.log 2 y := Int.log_mono_right hx h
  have hE : ulpExp p emin x ≤ ulpExp p emin y := by
    unfold ulpExp
    rw [abs_of_pos hx, abs_of_pos hy]
    have := max_le_max_right emin hlog
    omega
  rcases hE.lt_or_eq with hl | he
  · -- different binades: the power of two between them separates the results
    have hyl : ulpExp p emin y = Int.log 2 y - (p - 1) ∧ Int.log 2 x < Int.log 2 y ∧ emin < Int.log 2 y := by
      unfold ulpExp at hl ⊢
      rw [abs_of_pos hx, abs_of_pos hy] at hl
      rw [abs_of_pos hy]
      refine ⟨?_, ?_, ?_⟩ <;> omega
    obtain ⟨e1, e2, e3⟩ := hyl
    have b1 : nearest p emin x ≤ 2 ^ Int.log 2 y := by
      unfold nearest
      have hlt : x < 2 ^ Int.log 2 y := by
        have := Int.lt_zpow_succ_log_self (b := 2) (by norm_num) x
        refine lt_of_lt_of_le (by exact_mod_cast this) (zpow_le_zpow_right₀ (by norm_num) (by omega))
      set e := ulpExp p emin x
      have hee : e ≤ Int.log 2 y := by omega
      obtain ⟨n, hn⟩ : ∃ n : ℕ, Int.log 2 y = e + n := ⟨(Int.log 2 y - e).toNat, by omega⟩
      have hb : x / 2 ^ e ≤ ((2 ^ n : ℤ) : ℝ) := by
        rw [div_le_iff₀ (two_zpow_pos _)]
        refine hlt.le.trans (le_of_eq ?_)
        rw [hn, zpow_add₀ (by norm_num), zpow_natCast]; push_cast; ring
      have := roundEven_mono hb
      rw [roundEven_int] at this
      calc (roundEven (x / 2 ^ e) : ℝ) * 2 ^ e ≤ ((2 ^ n : ℤ) : ℝ) * 2 ^ e :=
            mul_le_mul_of_nonneg_right (by exact_mod_cast this) (two_zpow_pos _).le
        _ = 2 ^ Int.log 2 y := by rw [hn, zpow_add₀ (by norm_num), zpow_natCast]; push_cast; ring
    have b2 : (2 : ℝ) ^ Int.log 2 y ≤ nearest p emin y := by
      unfold nearest
      have hle : (2 : ℝ) ^ Int.log 2 y ≤ y := by
        have := Int.zpow_log_le_self (b := 2) (by norm_num) hy
        exact_mod_cast this
      set e := ulpExp p emin y
      obtain ⟨n, hn⟩ : ∃ n : ℕ, Int.log 2 y = e + n := ⟨p - 1, by omega⟩
      have hb : ((2 ^ n : ℤ) : ℝ) ≤ y / 2 ^ e := by
        rw [le_div_iff₀ (two_zpow_pos _)]
        refine le_trans (le_of_eq ?_) hle
        rw [hn, zpow_add₀ (by norm_num), zpow_natCast]; push_cast; ring
      have := roundEven_mono hb
      rw [roundEven_int] at this
      calc (2 : ℝ) ^ Int.log 2 y = ((2 ^ n : ℤ) : ℝ) * 2 ^ e := by rw [hn, zpow_add₀ (by norm_num), zpow_natCast]; push_cast; ring
        _ ≤ _ := mul_le_mul_of_nonneg_right (by exact_mod_cast this) (two_zpow_pos _).le
    exact b1.trans b2
  · unfold nearest
    rw [he]
    refine mul_le_mul_of_nonneg_right ?_ (two_zpow_pos _).le
    exact_mod_cast roundEven_mono (div_le_div_of_nonneg_right h (two_zpow_pos _).le)

theorem nearest_mono (hp : 1 ≤ p) {x y : ℝ} (h : x ≤ y) : nearest p emin x ≤ nearest p emin y := by
  rcases le_total 0 x with hx | hx
  · exact nearest_mono_nonneg hp hx h
  · rcases le_total 0 y with hy | hy
    · have h1 : nearest p emin x ≤ 0 := by
        have := nearest_nonneg (p := p) (emin := emin) (neg_nonneg.mpr hx)
        rw [nearest_neg] at this; linarith
      exact h1.trans (nearest_nonneg hy)
    · have := nearest_mono_nonneg (emin := emin) hp (neg_nonneg.mpr hy) (neg_le_neg h)
      rw [nearest_neg, nearest_neg] at this; linarith

theorem nearest_half (hp : 4 ≤ p) (he : emin ≤ 0) (k : ℤ) (hk : |k| ≤ 12) : nearest p emin ((k : ℝ) / 2) = k / 2 := by
  by_cases h0 : k = 0
  · subst h0; simp [nearest_zero]
  have habs : (0 : ℝ) < |(k : ℝ) / 2| := abs_pos.mpr (by
    have : (k : ℝ) ≠ 0 := by exact_mod_cast h0
    exact div_ne_zero this (by norm_num))
  have h6 : |(k : ℝ) / 2| < 2 ^ (3 : ℤ) := by
    rw [abs_div, abs_of_pos (by norm_num : (0 : ℝ) < 2)]
    have : |(k : ℝ)| ≤ 12 := by exact_mod_cast hk
    norm_num; linarith
  have hlog : Int.log 2 |(k : ℝ) / 2| < 3 := by
    by_contra h
    rw [not_lt] at h
    have h1 := Int.zpow_log_le_self (b := 2) (by norm_num) habs
    have h2 : (2 : ℝ) ^ (3 : ℤ) ≤ 2 ^ Int.log 2 |(k : ℝ) / 2| := zpow_le_zpow_right₀ (by norm_num) h
    have : ((2 : ℕ) : ℝ) ^ Int.log 2 |(k : ℝ) / 2| = (2 : ℝ) ^ Int.log 2 |(k : ℝ) / 2| := by norm_num
    linarith
  have hu : ulpExp p emin ((k : ℝ) / 2) ≤ -1 := by
    unfold ulpExp; omega
  obtain ⟨n, hn⟩ : ∃ n : ℕ, ulpExp p emin ((k : ℝ) / 2) = -1 - n := ⟨(-1 - ulpExp p emin ((k : ℝ) / 2)).toNat, by omega⟩
  refine nearest_of_int _ (k * 2 ^ n) ?_
  rw [hn, zpow_sub₀ (by norm_num)]
  push_cast
  have : (2 : ℝ) ^ n ≠ 0 := by positivity
  simp only [zpow_neg_one, zpow_natCast]
  field_simp

theorem ieee_rnd_of_lt {x : ℝ} (h : |nearest p emin x| < 2 ^ (emax + 1)) : (ieee p emin emax).rnd x = F.fin (nearest p emin x) := by
  obtain ⟨h1, h2⟩ := abs_lt.mp h
  simp only [ieee]
  rw [if_neg (by linarith), if_neg (by linarith)]

theorem nnSigmoid_range {x : F} (h : x ≠ F.nan) : ∃ r, nnSigmoid x = F.fin r ∧ 0 ≤ r ∧ r ≤ 1 := by
  cases x with
  | nan => exact absurd rfl h
  | pinf => exact ⟨1, by simp [nnSigmoid], zero_le_one, le_rfl⟩
  | ninf => exact ⟨0, by simp [nnSigmoid], le_rfl, zero_le_one⟩
  | fin x =>
    refine ⟨_, rfl, by positivity, ?_⟩
    rw [div_le_one (by positivity)]
    have := Real.exp_pos (-x); linarith

theorem nnSigmoid_mono {x y : F} (h : Le x y) : Le (nnSigmoid x) (nnSigmoid y) := by
  obtain ⟨r, hr, r0, r1⟩ := nnSigmoid_range h.left
  obtain ⟨s, hs, s0, s1⟩ := nnSigmoid_range h.right
  have hxy : ∀ a b : ℝ, x = F.fin a → y = F.fin b → a ≤ b := by rintro a b rfl rfl; exact Spec.Le.fin.mp h
  have e0 : (0 : F) = F.fin 0 := F.zero_eq
  have e1 : (1 : F) = F.fin 1 := F.one_eq
  rw [hr, hs, Spec.Le.fin]
  rw [← F.le_iff] at h
  cases x <;> cases y <;> first
    | (exfalso; simp [F.le, F.lt, F.eq] at h; done)
    | (simp only [nnSigmoid, e0, e1, F.fin.injEq] at hr hs; subst hr hs; first | exact s0 | exact r1 | exact le_rfl | exact zero_le_one | skip)
  have := hxy _ _ rfl rfl
  refine div_le_div_of_nonneg_left zero_le_one (by positivity) ?_
  have := Real.exp_le_exp.mpr (neg_le_neg this)
  linarith

/-- Every IEEE binary format with at least 4 bits of precision and a reasonable range satisfies the contract. -/
theorem ieee_contract (hp : 4 ≤ p) (he : emin ≤ 0) (hm : 3 ≤ emax) : FloatContract (ieee p emin emax) := by
  have hbig : (6 : ℝ) < 2 ^ (emax + 1) := by
    calc (6 : ℝ) < 2 ^ (4 : ℤ) := by norm_num
      _ ≤ _ := zpow_le_zpow_right₀ (by norm_num) (by omega)
  have hpos := two_zpow_pos (emax + 1)
  have hlog : ∀ x : F, x ≠ F.nan → ∃ r, nnSigmoid x = F.fin r ∧ (ieee p emin emax).logistic x = F.fin (nearest p emin r) ∧ 0 ≤ r ∧ r ≤ 1 := by
    intro x hx
    obtain ⟨r, h1, h2⟩ := nnSigmoid_range hx
    exact ⟨r, h1, by simp only [ieee]; rw [h1], h2⟩
  refine ⟨?_, ?_, ?_, ?_, rfl, ?_, ?_, ?_⟩
  · intro x
    simp only [ieee]
    split_ifs <;> simp
  · intro x y h
    have hm := nearest_mono (emin := emin) (by omega : 1 ≤ p) h
    simp only [ieee]
    split_ifs <;> first | exact .rfl' (by simp) | exact .pinf (by simp) | exact .ninf (by simp) | exact Spec.Le.fin.mpr hm | (exfalso; linarith)
  · intro x
    simp only [ieee, nearest_neg]
    split_ifs <;> first | rfl | (exfalso; linarith)
  · intro k hk
    have h1 := nearest_half hp he k hk
    have hk' : |(k : ℝ)| ≤ 12 := by exact_mod_cast hk
    rw [ieee_rnd_of_lt, h1]
    rw [h1, abs_div, abs_of_pos (by norm_num : (0 : ℝ) < 2)]
    linarith
  · intro x hx
    obtain ⟨r, -, h2, h3, h4⟩ := hlog x hx
    refine ⟨_, h2, nearest_nonneg h3, ?_⟩
    have := nearest_mono (emin := emin) (by omega : 1 ≤ p) h4
    have h1 := nearest_half (emin := emin) hp he 2 (by norm_num)
    norm_num at h1
    rwa [h1] at this
  · intro x y h
    obtain ⟨r, e1, h2, -⟩ := hlog x h.left
    obtain ⟨s, e2, h4, -⟩ := hlog y h.right
    have := nnSigmoid_mono h
    rw [e1, e2, Spec.Le.fin] at this
    rw [h2, h4, Spec.Le.fin]
    exact nearest_mono (by omega) this
  · obtain ⟨r, e1, h2, -⟩ := hlog (F.fin 0) (by simp)
    have : r = 1 / 2 := by
      simp [nnSigmoid] at e1; rw [← e1]; norm_num
    rw [h2, this]
    have h1 := nearest_half (emin := emin) hp he 1 (by norm_num)
    norm_num at h1
    norm_num [h1]

/-! ## Values in `float32` -/

theorem unbounded_contract (hp : 4 ≤ p) (he : emin ≤ 0) : FloatContract (unbounded p emin) := by
  have h := ieee_contract (p := p) (emin := emin) (emax := 3) hp he le_rfl
  exact ⟨fun x => by simp [unbounded], fun x y hxy => Spec.Le.fin.mpr (nearest_mono (by omega) hxy),
    fun x => by simp only [unbounded, nearest_neg]; rfl, fun k hk => by simp only [unbounded, nearest_half hp he k hk],
    h.logistic_nan, h.logistic_range, h.logistic_mono, h.logistic_zero⟩

theorem unbounded_noOverflow : NoOverflow (unbounded p emin) := fun x => ⟨nearest p emin x, rfl⟩

/-- A result of `ieee` that is finite is the result without bound on the exponent. -/
theorem ieee_rnd_fin {emax : ℤ} {x r : ℝ} (h : (ieee p emin emax).rnd x = F.fin r) : (unbounded p emin).rnd x = F.fin r := by
  simp only [ieee] at h
  split_ifs at h
  exact h

theorem log_eq {x : ℝ} {e : ℤ} (h1 : (2 : ℝ) ^ e ≤ x) (h2 : x < 2 ^ (e + 1)) : Int.log 2 x = e := by
  have hx : 0 < x := (two_zpow_pos e).trans_le h1
  have a := (Int.zpow_le_iff_le_log (b := 2) (by norm_num) hx).mp (by exact_mod_cast h1)
  have b := (Int.lt_zpow_iff_log_lt (b := 2) (by norm_num) hx).mp (by exact_mod_cast h2)
  omega

/-- A number with at most 24 significant bits in the range of the format is not rounded. -/
theorem float32_exact {x : ℝ} (e n : ℤ) (h1 : (2 : ℝ) ^ e ≤ |x|) (h2 : |x| < 2 ^ (e + 1)) (he : -126 ≤ e) (he' : e ≤ 127) (hx : x = n * 2 ^ (e - 23)) :
    float32.rnd x = F.fin x := by
  have hl := log_eq h1 h2
  have hu : ulpExp 24 (-126) x = e - 23 := by
    unfold ulpExp; rw [hl]; push_cast; omega
  have hn : nearest 24 (-126) x = x := nearest_of_int x n (by rw [hu]; exact hx)
  unfold float32
  rw [ieee_rnd_of_lt, hn]
  rw [hn]
  exact h2.trans_le (zpow_le_zpow_right₀ (by norm_num) (by omega))

end DiffeRT2d
