import Verif.Spec.Specular
import Verif.Lemmas.ImageSym

/-! Mirror reflections and the image method. -/

namespace DiffeRT2d
open Classical Spec

theorem side_rn (o d : Pt) : ∃ l : ℝ, 0 < l ∧ (∀ p, side o d p = -(l * dp (p - o) (rn o d))) ∧
    ∀ a b, along (o, d) a b = l * ((rn o d).x * (b - a).y - (rn o d).y * (b - a).x) := by
  obtain ⟨l, hl, h1, h2⟩ := rn_scaled o d
  refine ⟨l, hl, fun p => ?_, fun a b => ?_⟩
  · simp only [side, dp, V2.sub_x, V2.sub_y]
    linear_combination (-(p.x - o.x)) * h1 - (p.y - o.y) * h2
  · simp only [along, V2.sub_x, V2.sub_y]
    linear_combination (b.y - a.y) * h1 - (b.x - a.x) * h2

/-- Components in the frame of the wall determine a vector. -/
theorem frame_ext {n u v : Pt} (hn : dp n n = 1) (h1 : dp u n = dp v n)
    (h2 : n.x * u.y - n.y * u.x = n.x * v.y - n.y * v.x) : u = v := by
  simp only [dp] at hn h1
  ext
  · linear_combination (v.x - u.x) * hn + n.x * h1 - n.y * h2
  · linear_combination (v.y - u.y) * hn + n.y * h1 + n.x * h2

theorem reflects_aligned {w : RWall} (hw : w.1 ≠ w.2) {a b c : Pt} (h : Reflects w a b c) :
    dp (b - w.1) (rn w.1 w.2) = 0 ∧ dp (b - a) (rn w.1 w.2) ≠ 0 ∧
      ∃ k, 0 < k ∧ c - b = V2.smul k (refl (rn w.1 w.2) (b - a)) := by
  obtain ⟨l, hl, hs, ha⟩ := side_rn w.1 w.2
  have hon := (onLine_iff hw b).mp h.on
  have hn := rn_sq hw
  have hsame := h.same
  have hlaw := h.law
  rw [hs, hs] at hsame
  rw [show w = (w.1, w.2) from rfl, ha, ha, eucl_eq_nrm, eucl_eq_nrm] at hlaw
  set n := rn w.1 w.2
  set u := b - a with hu
  set v := c - b with hv
  have e1 : dp (a - w.1) n = -dp u n := by
    simp only [hu, dp, V2.sub_x, V2.sub_y] at hon ⊢; linear_combination hon
  have e2 : dp (c - w.1) n = dp v n := by
    simp only [hv, dp, V2.sub_x, V2.sub_y] at hon ⊢; linear_combination hon
  rw [e1, e2] at hsame
  set α := dp u n with hα
  set β := dp v n with hβ
  set X := n.x * u.y - n.y * u.x with hX
  set Y := n.x * v.y - n.y * v.x with hY
  have hαβ : α * β < 0 := by
    by_contra hc
    have := mul_nonneg (mul_pos hl hl).le (not_lt.mp hc)
    nlinarith
  have hα0 : α ≠ 0 := by rintro e; rw [e] at hαβ; simp at hαβ
  have hu2 : nrm u * nrm u = X ^ 2 + α ^ 2 := by
    rw [nrm_sq, hX, hα]; simp only [dp] at hn ⊢
    linear_combination (-(u.x ^ 2 + u.y ^ 2)) * hn
  have hv2 : nrm v * nrm v = Y ^ 2 + β ^ 2 := by
    rw [nrm_sq, hY, hβ]; simp only [dp] at hn ⊢
    linear_combination (-(v.x ^ 2 + v.y ^ 2)) * hn
  have hlaw' : X * nrm v = Y * nrm u := by
    apply mul_left_cancel₀ hl.ne'; linear_combination hlaw
  have hsq : (X * β) ^ 2 = (Y * α) ^ 2 := by
    have h3 : X ^ 2 * (nrm v * nrm v) = Y ^ 2 * (nrm u * nrm u) := by
      linear_combination (X * nrm v + Y * nrm u) * hlaw'
    rw [hu2, hv2] at h3
    linear_combination h3
  have hkey : X * β = -(Y * α) := by
    rcases sq_eq_sq_iff_eq_or_eq_neg.mp hsq with h | h
    · -- signs
      have hup : 0 < nrm u := by
        rcases (nrm_nonneg u).lt_or_eq with h | h
        · exact h
        · exfalso; rw [← h] at hu2; nlinarith [sq_nonneg X, sq_pos_of_ne_zero hα0]
      have h4 : X * Y ≥ 0 := by
        have : X * Y * nrm v = Y ^ 2 * nrm u := by linear_combination Y * hlaw'
        by_contra hc
        push Not at hc
        have hY0 : Y ≠ 0 := by rintro e; rw [e] at hc; simp at hc
        have := mul_pos (sq_pos_of_ne_zero hY0) hup
        have := mul_nonpos_of_nonpos_of_nonneg hc.le (nrm_nonneg v)
        linarith
      have h5 : X * Y * (α * β) ≤ 0 := mul_nonpos_of_nonneg_of_nonpos h4 hαβ.le
      have h6 : (Y * α) ^ 2 ≤ 0 := by
        have : X * Y * (α * β) = (Y * α) ^ 2 := by linear_combination (Y * α) * h
        linarith
      have h7 : Y * α = 0 := by
        apply pow_eq_zero_iff (two_ne_zero) |>.mp; exact le_antisymm h6 (sq_nonneg _)
      rw [h, h7]; simp
    · exact h
  refine ⟨hon, hα0, -(β / α), ?_, ?_⟩
  · have : β / α < 0 := by
      rw [div_neg_iff]
      rcases mul_neg_iff.mp hαβ with h | h
      · exact .inr ⟨h.2, h.1⟩
      · exact .inl ⟨h.2, h.1⟩
    linarith
  · apply frame_ext hn
    · rw [← hβ]
      have e : dp (V2.smul (-(β / α)) (refl n u)) n = -(β / α) * (α - 2 * α * dp n n) := by
        simp only [hα, dp, refl, V2.smul_x, V2.smul_y]; ring
      rw [e, hn]; field_simp; ring
    · rw [← hY]
      have e : n.x * (V2.smul (-(β / α)) (refl n u)).y - n.y * (V2.smul (-(β / α)) (refl n u)).x =
          -(β / α) * X := by
        simp only [hX, refl, V2.smul_x, V2.smul_y]; ring
      rw [e]; field_simp; linear_combination hkey

theorem reflects_of_aligned {w : RWall} (hw : w.1 ≠ w.2) {a b c : Pt} {k : ℝ}
    (hon : dp (b - w.1) (rn w.1 w.2) = 0) (h0 : dp (b - a) (rn w.1 w.2) ≠ 0) (hk : 0 < k)
    (hc : c - b = V2.smul k (refl (rn w.1 w.2) (b - a))) : Reflects w a b c := by
  obtain ⟨l, hl, hs, ha⟩ := side_rn w.1 w.2
  have hn := rn_sq hw
  refine ⟨(onLine_iff hw b).mpr hon, ?_, ?_⟩
  · rw [hs, hs]
    have e1 : dp (a - w.1) (rn w.1 w.2) = -dp (b - a) (rn w.1 w.2) := by
      simp only [dp, V2.sub_x, V2.sub_y] at hon ⊢; linear_combination hon
    have e2 : dp (c - w.1) (rn w.1 w.2) = -(k * dp (b - a) (rn w.1 w.2)) := by
      have : dp (c - w.1) (rn w.1 w.2) = dp (c - b) (rn w.1 w.2) := by
        simp only [dp, V2.sub_x, V2.sub_y] at hon ⊢; linear_combination hon
      rw [this, hc]
      simp only [dp] at hn
      simp only [dp, refl, V2.smul_x, V2.smul_y]
      linear_combination (-(2 * k * ((b - a).x * (rn w.1 w.2).x + (b - a).y * (rn w.1 w.2).y))) * hn
    rw [e1, e2]
    have := mul_pos (mul_pos (mul_pos hl hl) hk) (sq_pos_of_ne_zero h0)
    linarith [show -(l * -dp (b - a) (rn w.1 w.2)) * -(l * -(k * dp (b - a) (rn w.1 w.2))) =
      l * l * k * dp (b - a) (rn w.1 w.2) ^ 2 by ring]
  · rw [show w = (w.1, w.2) from rfl, ha, ha, eucl_eq_nrm, eucl_eq_nrm, hc, nrm_smul, abs_of_pos hk,
      nrm_refl (.inl hn)]
    simp only [refl, V2.smul_x, V2.smul_y]; ring

/-- Reflections along a polyline. -/
def ReflChain : List RWall → List Pt → Prop
  | w :: ws, a :: b :: c :: pts => Reflects w a b c ∧ ReflChain ws (b :: c :: pts)
  | _, _ => True

theorem reflChain_of (ws : List RWall) (pts : List Pt)
    (h : ∀ (i : ℕ) (w : RWall) (a b c : Pt), ws[i]? = some w → pts[i]? = some a → pts[i + 1]? = some b →
      pts[i + 2]? = some c → Reflects w a b c) : ReflChain ws pts := by
  induction ws generalizing pts with
  | nil => simp [ReflChain]
  | cons w ws ih =>
    match pts with
    | [] => simp [ReflChain]
    | [_] => simp [ReflChain]
    | [_, _] => simp [ReflChain]
    | a :: b :: c :: pts =>
      refine ⟨h 0 w a b c rfl rfl rfl rfl, ih _ fun i w' a' b' c' hw ha hb hc => ?_⟩
      exact h (i + 1) w' a' b' c' (by simpa using hw) (by simpa using ha) (by simpa using hb) (by simpa using hc)

theorem reflChain_get {ws : List RWall} {pts : List Pt} (h : ReflChain ws pts) (i : ℕ) (w : RWall) (a b c : Pt)
    (hw : ws[i]? = some w) (ha : pts[i]? = some a) (hb : pts[i + 1]? = some b) (hc : pts[i + 2]? = some c) :
    Reflects w a b c := by
  induction i generalizing ws pts with
  | zero =>
    match ws, pts, hw, ha, hb, hc with
    | w' :: ws, a' :: b' :: c' :: pts, hw, ha, hb, hc =>
      simp at hw ha hb hc; subst hw ha hb hc; exact h.1
  | succ i ih =>
    match ws, pts, hw, ha, hb, hc with
    | w' :: ws, a' :: b' :: c' :: pts, hw, ha, hb, hc =>
      exact ih h.2 (by simpa using hw) (by simpa using ha) (by simpa using hb) (by simpa using hc)
    | w' :: ws, [a'], hw, ha, hb, hc => simp at hb
    | w' :: ws, [a', b'], hw, ha, hb, hc => simp at hc

theorem reflChain_cons (w : RWall) (ws : List RWall) (prev q : Pt) (rest : List Pt) (rx : Pt) :
    ReflChain (w :: ws) (prev :: (q :: rest) ++ [rx]) ↔
      Reflects w prev q (rest.headD rx) ∧ ReflChain ws (q :: rest ++ [rx]) := by
  cases rest <;> simp [ReflChain]

/-- A specular path is the one the image method finds. -/
theorem rpts_of_specular (ws : List RWall) (hnd : ∀ w ∈ ws, w.1 ≠ w.2) (img rx prev : Pt) (qs : List Pt) (m : ℝ)
    (hm : 0 < m) (hlen : qs.length = ws.length)
    (hprev : qs.headD rx - prev = V2.smul m (qs.headD rx - img))
    (hc : ReflChain ws (prev :: qs ++ [rx])) :
    rpts img rx ws = qs ∧ ∀ s ∈ scores ws (prev :: qs ++ [rx]), s = 0 := by
  induction ws generalizing img prev qs m with
  | nil =>
    have : qs = [] := List.length_eq_zero_iff.mp (by simpa using hlen)
    subst this; simp [rpts, scores]
  | cons w ws ih =>
    match qs, hlen with
    | q :: rest, hlen =>
      rw [reflChain_cons] at hc
      obtain ⟨hr, hc⟩ := hc
      obtain ⟨hon, hne, k, hk, hkv⟩ := reflects_aligned (hnd w (by simp)) hr
      simp only [List.headD_cons] at hprev
      have hrimg := refl_sub hon img
      set n := rn w.1 w.2 with hn
      set im := rimg w.1 w.2 img with him
      have hkm : 0 < k * m := mul_pos hk hm
      -- next - q = k m (q - im)
      have e1 : rest.headD rx - q = V2.smul (k * m) (q - im) := by
        rw [hkv, hprev, ← hrimg]
        ext <;> simp only [refl, dp, V2.smul_x, V2.smul_y] <;> ring
      have e2 : rest.headD rx - q = V2.smul (k * m / (k * m + 1)) (rest.headD rx - im) := by
        have hx := congrArg V2.x e1
        have hy := congrArg V2.y e1
        simp only [V2.sub_x, V2.sub_y, V2.smul_x, V2.smul_y] at hx hy
        ext
        · simp only [V2.sub_x, V2.smul_x]; field_simp; linear_combination hx
        · simp only [V2.sub_y, V2.smul_y]; field_simp; linear_combination hy
      obtain ⟨ih1, ih2⟩ := ih (fun v hv => hnd v (by simp [hv])) im q rest (k * m / (k * m + 1)) (by positivity)
        (by simpa using hlen) e2 hc
      have hs : ∀ s ∈ scores (w :: ws) (prev :: (q :: rest) ++ [rx]), s = 0 := by
        rw [scores_cons]
        intro s hs
        rcases List.mem_cons.mp hs with rfl | hs
        · rw [reval_aligned w.1 w.2 prev q (rest.headD rx) (q - prev) 1 k (by ext <;> simp) hkv, sgn_pos hk,
            sgn_pos one_pos]; ring
        · exact ih2 s hs
      refine ⟨?_, hs⟩
      simp only [rpts]
      rw [← him, ih1]
      congr 1
      have hun : un w.1 w.2 im (rest.headD rx) ≠ 0 := by
        have h2 : dp (q - im) n = -dp (q - img) n := by
          have := dp_rimg w.1 w.2 img
          rw [← him, ← hn] at this
          simp only [dp, V2.sub_x, V2.sub_y] at this hon ⊢; linear_combination 2 * hon - this
        have h3 : dp (q - prev) n = m * dp (q - img) n := by rw [hprev]; simp only [dp, V2.smul_x, V2.smul_y]; ring
        have h4 : un w.1 w.2 im (rest.headD rx) = (k * m + 1) * dp (q - im) n := by
          have hx := congrArg V2.x e1
          have hy := congrArg V2.y e1
          simp only [V2.sub_x, V2.sub_y, V2.smul_x, V2.smul_y] at hx hy
          simp only [un, ← hn, dp, V2.sub_x, V2.sub_y]
          linear_combination n.x * hx + n.y * hy
        rw [h4, h2]
        intro h0
        apply hne
        rw [h3]
        rcases mul_eq_zero.mp h0 with h | h
        · linarith
        · rw [neg_eq_zero.mp h, mul_zero]
      have h5 := rback_next hun
      have h6 : dp (rest.headD rx - w.1) (rn w.1 w.2) / un w.1 w.2 im (rest.headD rx) = k * m / (k * m + 1) := by
        rw [div_eq_iff hun]
        have hx := congrArg V2.x e2
        have hy := congrArg V2.y e2
        simp only [V2.sub_x, V2.sub_y, V2.smul_x, V2.smul_y] at hx hy
        simp only [un, ← hn, dp, V2.sub_x, V2.sub_y] at hon ⊢
        linear_combination n.x * hx + n.y * hy + hon
      rw [h6, ← e2] at h5
      have hx := congrArg V2.x h5
      have hy := congrArg V2.y h5
      simp only [V2.sub_x, V2.sub_y] at hx hy
      exact V2.ext (by linarith) (by linarith)

theorem sub_zero_iff {a b : Pt} : b - a = ⟨0, 0⟩ ↔ a = b := by
  constructor
  · intro h
    have h1 := congrArg V2.x h
    have h2 := congrArg V2.y h
    simp only [V2.sub_x, V2.sub_y] at h1 h2
    exact V2.ext (by linarith) (by linarith)
  · rintro rfl; ext <;> simp

/-- At an interaction with a null score, either both steps are null or none is. -/
theorem reval_pause {o d a b c : Pt} (h : reval o d a b c = 0) : a = b ↔ b = c := by
  simp only [reval, dp] at h
  constructor
  · rintro rfl
    by_contra hc
    have e : a - a = (⟨0, 0⟩ : Pt) := sub_zero_iff.mpr rfl
    have h1 := unit_sq (fun e' => hc (sub_zero_iff.mp e') : c - a ≠ ⟨0, 0⟩)
    rw [e, unit_zero] at h
    simp only [zero_mul, add_zero, mul_zero, sub_zero] at h
    linarith
  · rintro rfl
    by_contra hc
    have e : b - b = (⟨0, 0⟩ : Pt) := sub_zero_iff.mpr rfl
    have h1 := unit_sq (fun e' => hc (sub_zero_iff.mp e') : b - a ≠ ⟨0, 0⟩)
    rw [e, unit_zero] at h
    rcases rn_sq_cases o d with hn | hn
    · simp only [dp] at hn
      have : (unit (b - a)).x * (unit (b - a)).x + (unit (b - a)).y * (unit (b - a)).y = 0 := by
        linear_combination h - 4 * ((unit (b - a)).x * (rn o d).x + (unit (b - a)).y * (rn o d).y) ^ 2 * hn
      linarith
    · rw [hn] at h
      simp only [zero_mul, add_zero, mul_zero, sub_zero, zero_sub, neg_mul_neg] at h
      linarith

/-- If all scores are null, a path that goes somewhere never pauses. -/
theorem noPause_of_moves {ws : List RWall} {pts : List Pt} (hl : pts.length = ws.length + 2) (h0 : ∀ s ∈ scores ws pts, s = 0) (hm : Moves pts) : NoPause pts := by
  have step : ∀ (i : ℕ) (a b c : Pt), pts[i]? = some a → pts[i + 1]? = some b → pts[i + 2]? = some c → (a = b ↔ b = c) := by
    intro i a b c ha hb hc
    have hi : i < ws.length := by have := (List.getElem?_eq_some_iff.mp hc).1; omega
    have := scores_get ws pts i ws[i] a b c (List.getElem?_eq_getElem hi) ha hb hc
    exact reval_pause (h0 _ (List.mem_of_getElem? this))
  intro i a b ha hb hab
  -- then every step is null
  have hget : ∀ j < pts.length, ∃ p, pts[j]? = some p := fun j hj => ⟨_, List.getElem?_eq_getElem hj⟩
  have up : ∀ k, i + k + 1 < pts.length → ∀ p q, pts[i + k]? = some p → pts[i + k + 1]? = some q → p = q := by
    intro k
    induction k with
    | zero =>
      intro _ p q hp hq
      rw [Nat.add_zero] at hp hq
      rw [ha] at hp; rw [hb] at hq
      cases hp; cases hq; exact hab
    | succ k ih =>
      intro hk p q hp hq
      obtain ⟨o, ho⟩ := hget (i + k) (by omega)
      exact (step (i + k) o p q ho hp hq).mp (ih (by omega) o p ho hp)
  have down : ∀ k ≤ i, ∀ p q, pts[i - k]? = some p → pts[i - k + 1]? = some q → p = q := by
    intro k
    induction k with
    | zero =>
      intro _ p q hp hq
      rw [Nat.sub_zero] at hp hq
      rw [ha] at hp; rw [hb] at hq
      cases hp; cases hq; exact hab
    | succ k ih =>
      intro hk p q hp hq
      have e : i - (k + 1) + 1 = i - k := by omega
      rw [e] at hq
      have hib := (List.getElem?_eq_some_iff.mp hb).1
      obtain ⟨o, ho⟩ := hget (i - k + 1) (by omega)
      refine (step (i - (k + 1)) p q o hp (by rw [e]; exact hq) (by rw [show i - (k + 1) + 2 = i - k + 1 by omega]; exact ho)).mpr ?_
      exact ih (by omega) q o hq ho
  have all : ∀ j, j + 1 < pts.length → ∀ p q, pts[j]? = some p → pts[j + 1]? = some q → p = q := by
    intro j hj p q hp hq
    rcases le_total i j with h | h
    · obtain ⟨k, rfl⟩ := Nat.exists_eq_add_of_le h
      exact up k (by omega) p q hp hq
    · obtain ⟨k, hk⟩ := Nat.exists_eq_add_of_le h
      have e : j = i - k := by omega
      subst e
      exact down k (by omega) p q hp hq
  obtain ⟨p0, hp0⟩ := hget 0 (by omega)
  have const : ∀ (j : ℕ) (p : Pt), pts[j]? = some p → p = p0 := by
    intro j
    induction j with
    | zero => intro p hp; rw [hp0] at hp; exact (Option.some.inj hp).symm
    | succ j ih =>
      intro p hp
      have hj := (List.getElem?_eq_some_iff.mp hp).1
      obtain ⟨q, hq⟩ := hget j (by omega)
      rw [← all j hj q p hq hp]; exact ih q hq
  obtain ⟨p, hp, q, hq, hne⟩ := hm
  obtain ⟨j, hj⟩ := List.mem_iff_getElem?.mp hp
  obtain ⟨j', hj'⟩ := List.mem_iff_getElem?.mp hq
  exact hne ((const j p hj).trans (const j' q hj').symm)

/-- A path of the image method with null scores and without repeated points is specular. -/
theorem specular_of_rpts (ws : List RWall) (hnd : ∀ w ∈ ws, w.1 ≠ w.2) (img rx prev : Pt) (m : ℝ) (hm : 0 < m)
    (hprev : (rpts img rx ws).headD rx - prev = V2.smul m ((rpts img rx ws).headD rx - img))
    (hp : NoPause (prev :: rpts img rx ws ++ [rx]))
    (h0 : ∀ s ∈ scores ws (prev :: rpts img rx ws ++ [rx]), s = 0) :
    ReflChain ws (prev :: rpts img rx ws ++ [rx]) := by
  induction ws generalizing img prev m with
  | nil => simp [ReflChain]
  | cons w ws ih =>
    have e12 : (prev :: rpts img rx (w :: ws) ++ [rx])[1]? = some (rback w.1 w.2 (rimg w.1 w.2 img)
        ((rpts (rimg w.1 w.2 img) rx ws).headD rx)) ∧
        (prev :: rpts img rx (w :: ws) ++ [rx])[2]? = some ((rpts (rimg w.1 w.2 img) rx ws).headD rx) := by
      constructor
      · simp [rpts]
      · simp only [rpts]; cases rpts (rimg w.1 w.2 img) rx ws <;> simp
    have hp1 := hp 0 _ _ rfl e12.1
    have hp2 := hp 1 _ _ e12.1 e12.2
    have hp' : NoPause (rpts img rx (w :: ws) ++ [rx]) := fun i a b ha hb => hp (i + 1) a b (by simpa using ha) (by simpa using hb)
    simp only [rpts, List.headD_cons] at hprev h0 hp' ⊢
    rw [scores_cons] at h0
    rw [reflChain_cons]
    have hs0 := h0 _ (List.mem_cons_self ..)
    obtain ⟨hon, ⟨k, hk, hnx⟩, -⟩ := (interaction w.1 w.2 img _ prev m hprev).2.1 hm hs0
    refine ⟨?_, ih (fun v hv => hnd v (by simp [hv])) _ _ k hk hnx hp'
      (fun s hs => h0 s (by simp only [List.mem_cons]; exact .inr hs))⟩
    have hrimg := refl_sub hon img
    set im := rimg w.1 w.2 img with him
    set nxt := (rpts im rx ws).headD rx with hnxt
    set q := rback w.1 w.2 im nxt with hq
    set n := rn w.1 w.2 with hn
    have hn1 := rn_sq (hnd w (by simp))
    rw [← hn] at hn1
    have hv : q - prev ≠ ⟨0, 0⟩ := by
      intro e; apply hp1
      have hx := congrArg V2.x e
      have hy := congrArg V2.y e
      simp at hx hy
      exact V2.ext (by linarith) (by linarith)
    have hqim : q - im = V2.smul (1 / m) (refl n (q - prev)) := by
      rw [← hrimg, hprev]
      ext <;> simp only [refl, dp, V2.smul_x, V2.smul_y] <;> field_simp
    have hlin : V2.smul (1 - k) (nxt - q) = V2.smul (k / m) (refl n (q - prev)) := by
      have hx := congrArg V2.x hnx
      have hy := congrArg V2.y hnx
      have hx' := congrArg V2.x hqim
      have hy' := congrArg V2.y hqim
      simp only [V2.sub_x, V2.sub_y, V2.smul_x, V2.smul_y] at hx hy hx' hy'
      ext
      · simp only [V2.sub_x, V2.smul_x]; linear_combination hx + k * hx'
      · simp only [V2.sub_y, V2.smul_y]; linear_combination hy + k * hy'
    have hk1 : 1 - k ≠ 0 := by
      intro e
      rw [e] at hlin
      apply hv
      have hz : refl n (q - prev) = ⟨0, 0⟩ := by
        have hx := congrArg V2.x hlin
        have hy := congrArg V2.y hlin
        simp only [V2.smul_x, V2.smul_y, zero_mul] at hx hy
        have hkm : k / m ≠ 0 := by positivity
        exact V2.ext (by simpa [hkm] using hx.symm) (by simpa [hkm] using hy.symm)
      have := refl_refl (.inl hn1) (q - prev)
      rw [hz] at this
      rw [← this]; ext <;> simp [refl, dp]
    have hal : nxt - q = V2.smul (k / m / (1 - k)) (refl n (q - prev)) := by
      have hx := congrArg V2.x hlin
      have hy := congrArg V2.y hlin
      simp only [V2.smul_x, V2.smul_y] at hx hy
      ext
      · simp only [V2.smul_x]; rw [div_mul_eq_mul_div, eq_div_iff hk1]; linear_combination hx
      · simp only [V2.smul_y]; rw [div_mul_eq_mul_div, eq_div_iff hk1]; linear_combination hy
    have hsc := reval_aligned w.1 w.2 prev q nxt (q - prev) 1 _ (by ext <;> simp) hal
    rw [hs0, sgn_pos one_pos] at hsc
    rcases dp_unit_cases (q - prev) with ⟨h, -⟩ | ⟨-, hu⟩
    · exact absurd h hv
    rw [hu, mul_one] at hsc
    have hkp : 0 < k / m / (1 - k) := by
      rcases sgn_cases (k / m / (1 - k)) with ⟨h, -⟩ | ⟨-, e⟩ | ⟨-, e⟩
      · exact h
      · rw [e] at hsc; norm_num at hsc
      · rw [e] at hsc; norm_num at hsc
    refine reflects_of_aligned (hnd w (by simp)) hon ?_ hkp hal
    rw [← hn]
    intro hz
    apply hp2
    -- grazing: the step is guarded
    have h1 : dp (q - img) n = 0 := by
      have : dp (q - prev) n = m * dp (q - img) n := by rw [hprev]; simp only [dp, V2.smul_x, V2.smul_y]; ring
      rw [this] at hz
      rcases mul_eq_zero.mp hz with h | h
      · exact absurd h hm.ne'
      · exact h
    have h2 : dp (nxt - q) n = 0 := by
      rw [hal]
      have e : dp (V2.smul (k / m / (1 - k)) (refl n (q - prev))) n =
          (k / m / (1 - k)) * (dp (q - prev) n - 2 * dp (q - prev) n * dp n n) := by
        simp only [dp, refl, V2.smul_x, V2.smul_y]; ring
      rw [e, hz]; ring
    have hun : un w.1 w.2 im nxt = 0 := by
      rw [him, un_rimg, ← hn]
      simp only [dp, V2.sub_x, V2.sub_y] at h1 h2 hon ⊢
      linear_combination h2 - h1 + 2 * hon
    rw [hq, rback_guard hun]

end DiffeRT2d
