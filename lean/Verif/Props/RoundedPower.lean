import Verif.Lemmas.RoundedPower

/-! # Property C116: the received power in floating point -/

namespace DiffeRT2d.Props
open Classical Spec

variable {A : FloatOps} {E : Env} {ap : Option Bool} {kw : ActKw}

/-- In IEEE formats, rounding a number of the format leaves it unchanged. -/
theorem C116_formats (p : ℕ) (emin emax : ℤ) (hp : 1 ≤ p) : Idempotent (ieee p emin emax) := ieee_idem hp

/-- **C116.** For a path through finite points, a coefficient in `[0, 1]` and a height whose square does not underflow to zero,
the received power computed in floating point is a number between 0 and `1 / height²` (rounded): it is never NaN nor infinite, even
when the length overflows. -/
theorem C116_power (hA : FloatContract A) (hi : Idempotent A) (pts : List Pt) (loss : F) (c h H M : ℝ) (c0 : 0 ≤ c) (c1 : c ≤ 1)
    (hH : A.rnd (h * h) = F.fin H) (H0 : 0 < H) (hM : A.rnd (1 / H) = F.fin M) :
    ∃ v : ℝ, A.receivedPower E ⟨pts.map V2.fin, loss⟩ (F.fin c) (F.fin h) = F.fin v ∧ 0 ≤ v ∧ v ≤ M := by
  obtain ⟨x, ex, x0, x1⟩ := power_range hA c0 c1 (pts.length - 2)
  have hr := length_nonneg' hA E pts
  have hD := denom_ge hA hi hH H0 hr
  set D := A.add (A.mul (F.fin h) (F.fin h)) (A.mul (A.pathLength E (pts.map V2.fin)) (A.pathLength E (pts.map V2.fin))) with hDD
  have e : A.receivedPower E ⟨pts.map V2.fin, loss⟩ (F.fin c) (F.fin h) = A.div (F.fin x) D := by
    simp only [FloatOps.receivedPower, List.length_map, ex, hDD]
  have up := div_anti hA x0 x1 H0 (Le.fin.mpr le_rfl) hD
  have e1 : A.div (F.fin 1) (F.fin H) = F.fin M := by
    rw [FloatOps.div, F.fin_div _ H0.ne']; exact hM
  rw [e1] at up
  have low := div_anti hA le_rfl x0 H0 hD (Le.rfl' hD.right)
  have e0 : A.div (F.fin 0) D = F.fin 0 := by
    rcases nonneg_cases ((Le.fin.mpr H0.le).trans hD) with ⟨d, ed, -⟩ | ed
    · rw [ed, Le.fin] at hD
      rw [ed, FloatOps.div, F.fin_div _ (H0.trans_le hD).ne', zero_div]; exact hA.zero
    · rw [ed]; exact hA.zero
  rw [e0] at low
  rw [e]
  rcases nonneg_cases low with ⟨v, ev, v0⟩ | ev
  · rw [ev, Le.fin] at up; exact ⟨v, ev, v0, up⟩
  · rw [ev, ← F.le_iff] at up; simp [F.le, F.lt, F.eq] at up

/-- **C116.** A path that is at least as long, as computed, with at least as many interactions, never receives more power. -/
theorem C116_decreasing (hA : FloatContract A) (hi : Idempotent A) (pts pts' : List Pt) (loss loss' : F) (c h H : ℝ) (c0 : 0 ≤ c) (c1 : c ≤ 1)
    (hH : A.rnd (h * h) = F.fin H) (H0 : 0 < H) (hn : pts.length ≤ pts'.length) (hl : Le (A.pathLength E (pts.map V2.fin)) (A.pathLength E (pts'.map V2.fin))) :
    Le (A.receivedPower E ⟨pts'.map V2.fin, loss'⟩ (F.fin c) (F.fin h)) (A.receivedPower E ⟨pts.map V2.fin, loss⟩ (F.fin c) (F.fin h)) := by
  have hp := power_anti' hA hi c0 c1 (show pts.length - 2 ≤ pts'.length - 2 by omega)
  obtain ⟨x, ex, x0, x1⟩ := power_range hA c0 c1 (pts.length - 2)
  obtain ⟨x', ex', x0', x1'⟩ := power_range hA c0 c1 (pts'.length - 2)
  rw [ex, ex', Le.fin] at hp
  have hr := length_nonneg' hA E pts
  have e : A.mul (F.fin h) (F.fin h) = F.fin H := hH
  have hq := add_mono' hA (Le.fin.mpr H0.le) (sq_nonneg' hA hr.right) (Le.fin.mpr (le_refl H)) (sq_mono' hA hr hl)
  rw [← e] at hq
  have := div_anti hA x0' hp H0 (denom_ge hA hi hH H0 hr) hq
  simpa only [FloatOps.receivedPower, List.length_map, ex, ex'] using this

/-- The validity of a traced path is a truth value in both modes. -/
theorem validity_range (hA : FloatContract A) (hk : FloatStep kw) (tx rx : V2 F) (walls : List Wall) (c : List ℤ) (tol patch : F) (hf : TracesFinite A tx rx walls c) :
    ∃ v, A.validity E tx rx walls c tol patch ap kw = .ok v ∧ ∃ d : ℝ, v.toF = F.fin d ∧ 0 ≤ d ∧ d ≤ 1 := by
  obtain ⟨pts, loss, e⟩ := hf
  have hlen : (A.imagePath tx (FloatOps.interacting walls c) rx).xys.length ≤ c.length + 2 := by
    have h1 : (FloatOps.interacting walls c).length ≤ c.length := List.length_filterMap_le _ _
    have h2 : ∀ ws : List Wall, (A.imagePath tx ws rx).xys.length = ws.length + 2 := by
      intro ws
      cases ws with
      | nil => rfl
      | cons w ws =>
        simp only [FloatOps.imagePath, List.cons_append, List.length_cons, List.length_append, List.length_nil, length_backward, List.length_zip, length_images]
        simp
    rw [h2]; omega
  have hmode : Soft E ap ∨ Hard E ap := by
    rcases ap with _ | _ | _
    · cases h : E.enableApprox
      · exact .inr (.inr ⟨rfl, h⟩)
      · exact .inl (.inr ⟨rfl, h⟩)
    · exact .inr (.inl rfl)
    · exact .inl (.inl rfl)
  rcases hmode with hs | hh
  · have hw : ∀ ws : List Wall, ∀ o ∈ ws.map A.wallInteract, FuzzyObject E ap kw o := by
      intro ws o ho
      obtain ⟨w, -, rfl⟩ := List.mem_map.mp ho
      exact fuzzy_builtin hk hs (.wall w) (by rintro c i b ⟨⟩)
    obtain ⟨r, h1, h2, h3⟩ := C89_range hA hk hs (A.imagePath tx (FloatOps.interacting walls c) rx) (walls.map A.wallInteract)
      ((FloatOps.interacting walls c).map A.wallInteract) c tol patch hlen (hw _) (hw _)
    exact ⟨_, h1, r, rfl, h2, h3⟩
  · refine ⟨_, rounded_isValid_hard _ hh _ _ _ _ _ _ hlen, ?_⟩
    generalize (_ && (_ && _) : Bool) = b
    cases b
    · exact ⟨0, by simp [Truthy.toF], le_rfl, zero_le_one⟩
    · exact ⟨1, by simp [Truthy.toF], zero_le_one, le_rfl⟩

/-- **C116.** In both modes, the power accumulated in floating point is a number (or plus infinity, if the sum overflows), never
less than what was accumulated before: no path can spoil or decrease it. It is unchanged, to the last bit, if no path is valid. -/
theorem C116_field (hA : FloatContract A) (hi : Idempotent A) (hk : FloatStep kw) (tx rx : V2 F) (walls : List Wall) (tol patch : F)
    (c h H M : ℝ) (c0 : 0 ≤ c) (c1 : c ≤ 1) (hH : A.rnd (h * h) = F.fin H) (H0 : 0 < H) (hM : A.rnd (1 / H) = F.fin M)
    (cs : List (List ℤ)) (hf : ∀ k ∈ cs, TracesFinite A tx rx walls k) (acc : F) (ha : Le (F.fin 0) acc) (ha' : A.round acc = acc) :
    ∃ v, A.accumulate E tx rx walls tol patch ap kw (F.fin c) (F.fin h) acc cs = .ok v ∧ Le acc v ∧ A.round v = v ∧
      ((∀ k ∈ cs, ∃ d, A.validity E tx rx walls k tol patch ap kw = .ok d ∧ d.toF = F.fin 0) → v = acc) := by
  induction cs generalizing acc with
  | nil => exact ⟨acc, rfl, Le.rfl' ha.right, ha', fun _ => rfl⟩
  | cons k cs ih =>
    obtain ⟨d, e, q, eq, q0, q1⟩ := validity_range (E := E) (ap := ap) hA hk tx rx walls k tol patch (hf k (by simp))
    obtain ⟨pts, loss, ep⟩ := hf k (by simp)
    obtain ⟨w, ew, w0, -⟩ := C116_power (E := E) hA hi pts loss c h H M c0 c1 hH H0 hM
    have hidem : ∀ x : F, A.round (A.round x) = A.round x := by
      intro x
      cases x with
      | fin x =>
        rw [round_fin]
        cases hx : A.rnd x with
        | fin r => exact hi _ _ hx
        | _ => rfl
      | _ => rfl
    have hm : A.mul d.toF (A.receivedPower E (A.imagePath tx (FloatOps.interacting walls k) rx) (F.fin c) (F.fin h)) = A.rnd (q * w) := by
      rw [ep, ew, eq]; rfl
    have hm0 : Le (F.fin 0) (A.rnd (q * w)) := rnd_nonneg hA (mul_nonneg q0 w0)
    have hacc : Le acc (A.add acc (A.rnd (q * w))) := by
      have := add_mono' hA ha (Le.fin.mpr (le_refl 0)) (Le.rfl' ha.right) hm0
      have e2 : A.add acc (F.fin 0) = acc := by
        have : acc + F.fin 0 = acc := by cases acc <;> first | rfl | (show F.fin _ = _; rw [add_zero])
        rw [FloatOps.add, this, ha']
      rwa [e2] at this
    obtain ⟨v, e1, e2, e3, e4⟩ := ih (fun k hk => hf k (by simp [hk])) (A.add acc (A.rnd (q * w))) (ha.trans hacc) (hidem _)
    refine ⟨v, ?_, hacc.trans e2, e3, fun hz => ?_⟩
    · rw [FloatOps.accumulate, e]
      show FloatOps.accumulate _ _ _ _ _ _ _ _ _ _ _ _ _ = _
      rw [hm, e1]
    · obtain ⟨d', ed, hd⟩ := hz k (by simp)
      rw [e] at ed
      obtain rfl := Except.ok.inj ed
      have : q = 0 := by rw [eq] at hd; exact F.fin.inj hd
      rw [e4 fun k hk => hz k (by simp [hk]), this, zero_mul, hA.zero]
      have : acc + F.fin 0 = acc := by cases acc <;> first | rfl | (show F.fin _ = _; rw [add_zero])
      rw [FloatOps.add, this, ha']

/-- **C116.** More paths never decrease the accumulated power in floating point, whatever the rounding errors. -/
theorem C116_more (hA : FloatContract A) (hi : Idempotent A) (hk : FloatStep kw) (tx rx : V2 F) (walls : List Wall) (tol patch : F)
    (c h H M : ℝ) (c0 : 0 ≤ c) (c1 : c ≤ 1) (hH : A.rnd (h * h) = F.fin H) (H0 : 0 < H) (hM : A.rnd (1 / H) = F.fin M)
    (cs cs' : List (List ℤ)) (hf : ∀ k ∈ cs ++ cs', TracesFinite A tx rx walls k) :
    ∃ v v', A.accumulate E tx rx walls tol patch ap kw (F.fin c) (F.fin h) 0 cs = .ok v ∧
      A.accumulate E tx rx walls tol patch ap kw (F.fin c) (F.fin h) 0 (cs ++ cs') = .ok v' ∧ Le (F.fin 0) v ∧ Le v v' := by
  have app : ∀ (cs : List (List ℤ)) (acc : F), A.accumulate E tx rx walls tol patch ap kw (F.fin c) (F.fin h) acc (cs ++ cs') =
      A.accumulate E tx rx walls tol patch ap kw (F.fin c) (F.fin h) acc cs >>= fun v => A.accumulate E tx rx walls tol patch ap kw (F.fin c) (F.fin h) v cs' := by
    intro cs
    induction cs with
    | nil => intro acc; rfl
    | cons k cs ih =>
      intro acc
      rw [List.cons_append, FloatOps.accumulate, FloatOps.accumulate]
      cases A.validity E tx rx walls k tol patch ap kw with
      | error e => rfl
      | ok v => exact ih _
  have h0 : A.round (0 : F) = 0 := by rw [F.zero_eq, round_fin, hA.zero]
  obtain ⟨v, e1, e2, e3, -⟩ := C116_field (E := E) (ap := ap) hA hi hk tx rx walls tol patch c h H M c0 c1 hH H0 hM cs (fun k hk => hf k (by simp [hk])) 0
    (by rw [F.zero_eq]; exact Le.fin.mpr le_rfl) h0
  rw [F.zero_eq] at e2
  obtain ⟨v', f1, f2, -, -⟩ := C116_field (E := E) (ap := ap) hA hi hk tx rx walls tol patch c h H M c0 c1 hH H0 hM cs' (fun k hk => hf k (by simp [hk])) v e2 e3
  refine ⟨v, v', e1, ?_, e2, f2⟩
  rw [app, e1]; exact f1

/-- Where nothing overflows, every candidate is traced to a finite path. -/
theorem C116_finite (hA : FloatContract A) (hN : NoOverflow A) (tx rx : Pt) (walls : List (Pt × Pt)) (c : List ℤ) :
    TracesFinite A (V2.fin tx) (V2.fin rx) (walls.map fun w => ⟨V2.fin w.1, V2.fin w.2⟩) c := by
  have e : FloatOps.interacting (walls.map fun w => (⟨V2.fin w.1, V2.fin w.2⟩ : Wall)) c = (c.filterMap fun i => walls[i.toNat]?).map fun w => (⟨V2.fin w.1, V2.fin w.2⟩ : Wall) := by
    unfold FloatOps.interacting
    rw [List.map_filterMap]
    congr 1
    funext i
    simp
  obtain ⟨pts, l, -, -, h⟩ := C91_finite hA hN tx rx (c.filterMap fun i => walls[i.toNat]?)
  exact ⟨tx :: pts ++ [rx], F.fin l, by rw [e, h]; simp⟩

/-- Between powers of two of the format, rounding gives a number between the same powers. -/
theorem rnd_between {p : ℕ} {emin emax j k : ℤ} (hp : 1 ≤ p) (hj : emin ≤ j) (hjk : j ≤ k) (hk : k ≤ emax) {x : ℝ} (h1 : (2 : ℝ) ^ j ≤ x) (h2 : x ≤ 2 ^ k) :
    ∃ r, (ieee p emin emax).rnd x = F.fin r ∧ (2 : ℝ) ^ j ≤ r ∧ r ≤ 2 ^ k := by
  have a1 := nearest_mono (p := p) (emin := emin) hp h1
  have a2 := nearest_mono (p := p) (emin := emin) hp h2
  rw [nearest_two_zpow hp hj] at a1
  rw [nearest_two_zpow hp (hj.trans hjk)] at a2
  have h3 : (2 : ℝ) ^ k < 2 ^ (emax + 1) := zpow_lt_zpow_right₀ (by norm_num) (by omega)
  have h4 := two_zpow_pos j
  refine ⟨_, ieee_rnd_of_lt ?_, a1, a2⟩
  rw [abs_of_pos (by linarith)]; linarith

/-- **C116.** In `float32`, the hypotheses on the height hold for every height between `2 ^ -60` and `2 ^ 60`, the default 0.1 among
them. -/
theorem C116_height (height : ℝ) (h1 : (2 : ℝ) ^ (-60 : ℤ) ≤ height) (h2 : height ≤ 2 ^ (60 : ℤ)) :
    ∃ h H M : ℝ, float32.rnd height = F.fin h ∧ float32.rnd (h * h) = F.fin H ∧ 0 < H ∧ float32.rnd (1 / H) = F.fin M := by
  obtain ⟨h, e, b1, b2⟩ := rnd_between (p := 24) (emin := -126) (emax := 127) (by norm_num) (by norm_num) (by norm_num) (by norm_num) h1 h2
  have hp := two_zpow_pos (-60)
  have c1 : (2 : ℝ) ^ (-120 : ℤ) ≤ h * h := by
    rw [show (-120 : ℤ) = -60 + -60 by norm_num, zpow_add₀ (by norm_num)]; exact mul_le_mul b1 b1 hp.le (hp.le.trans b1)
  have c2 : h * h ≤ (2 : ℝ) ^ (120 : ℤ) := by
    rw [show (120 : ℤ) = 60 + 60 by norm_num, zpow_add₀ (by norm_num)]; exact mul_le_mul b2 b2 (hp.le.trans b1) (two_zpow_pos _).le
  obtain ⟨H, e', d1, d2⟩ := rnd_between (p := 24) (emin := -126) (emax := 127) (by norm_num) (by norm_num) (by norm_num) (by norm_num) c1 c2
  have H0 : 0 < H := (two_zpow_pos _).trans_le d1
  have f1 : (2 : ℝ) ^ (-120 : ℤ) ≤ 1 / H := by
    rw [show (-120 : ℤ) = -(120 : ℤ) by norm_num, zpow_neg, ← one_div]; exact one_div_le_one_div_of_le H0 d2
  have f2 : 1 / H ≤ (2 : ℝ) ^ (120 : ℤ) := by
    have := one_div_le_one_div_of_le (two_zpow_pos _) d1
    rw [zpow_neg, one_div, one_div, inv_inv, ← one_div] at this; exact this
  obtain ⟨M, e'', -⟩ := rnd_between (p := 24) (emin := -126) (emax := 127) (by norm_num) (by norm_num) (by norm_num) (by norm_num) f1 f2
  exact ⟨h, H, M, e, e', H0, e''⟩

/-- The hypotheses hold of `float32` and the default height, and of every scene in a format without upper bound. -/
example : FloatContract float32 ∧ Idempotent float32 ∧ (∃ h H M : ℝ, float32.rnd (1 / 10) = F.fin h ∧ float32.rnd (h * h) = F.fin H ∧ 0 < H ∧ float32.rnd (1 / H) = F.fin M) ∧
    TracesFinite (unbounded 24 (-126)) (V2.fin ⟨0, 1⟩) (V2.fin ⟨2, 1⟩) ([((⟨0, 0⟩, ⟨3, 0⟩) : Pt × Pt)].map fun w => ⟨V2.fin w.1, V2.fin w.2⟩) [0] :=
  ⟨C87_formats.1, C116_formats _ _ _ (by norm_num), C116_height _ (by norm_num [zpow_neg]) (by norm_num), C116_finite (unbounded_contract (by norm_num) (by norm_num)) unbounded_noOverflow _ _ _ _⟩

end DiffeRT2d.Props
