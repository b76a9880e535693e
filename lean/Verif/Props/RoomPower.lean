import Verif.Props.Room
import Mathlib.Topology.Order.MonotoneConvergence
import Mathlib.Topology.Instances.Real.Lemmas

/-! # C113: the power received in a rectangular room converges as the order grows -/

namespace DiffeRT2d.Props
open Spec Filter

/-- What the orders after `N` can add. -/
theorem tail_step (q : ℝ) (hq : q < 1) (N : ℕ) :
    q ^ (N + 1) * (N + 1 - N * q) / (1 - q) ^ 2 - q ^ (N + 2) * ((N + 1 : ℕ) + 1 - (N + 1 : ℕ) * q) / (1 - q) ^ 2 = (N + 1) * q ^ (N + 1) := by
  have : (1 - q) ≠ 0 := by linarith
  push_cast
  field_simp
  ring

theorem tail_nonneg (q : ℝ) (h0 : 0 ≤ q) (h1 : q < 1) (N : ℕ) : 0 ≤ q ^ (N + 1) * (N + 1 - N * q) / (1 - q) ^ 2 := by
  have : (N : ℝ) * q ≤ N * 1 := mul_le_mul_of_nonneg_left h1.le (Nat.cast_nonneg _)
  have : 0 ≤ (N : ℝ) + 1 - N * q := by linarith
  positivity

/-- A sequence whose steps are at most `B` times `(N + 1) * q ^ (N + 1)` converges. -/
theorem converges (v : ℕ → ℝ) (q B : ℝ) (h0 : 0 ≤ q) (h1 : q < 1) (hB : 0 ≤ B) (hup : ∀ N, v N ≤ v (N + 1)) (hst : ∀ N : ℕ, v (N + 1) ≤ v N + B * ((N + 1) * q ^ (N + 1))) :
    ∃ L, Tendsto v atTop (nhds L) ∧ ∀ N : ℕ, v N ≤ L ∧ L ≤ v N + B * (q ^ (N + 1) * (N + 1 - N * q) / (1 - q) ^ 2) := by
  set T : ℕ → ℝ := fun N => q ^ (N + 1) * (N + 1 - N * q) / (1 - q) ^ 2 with hT
  have hm : Monotone v := monotone_nat_of_le_succ hup
  have ha : Antitone fun N => v N + B * T N := by
    refine antitone_nat_of_succ_le fun N => ?_
    have e := tail_step q h1 N
    have h := hst N
    have : T N - T (N + 1) = (N + 1) * q ^ (N + 1) := by simpa only [hT] using e
    rw [← this] at h
    linarith
  have hTn : ∀ N, 0 ≤ B * T N := fun N => mul_nonneg hB (tail_nonneg q h0 h1 N)
  have hb : ∀ N M, v M ≤ v N + B * T N := by
    intro N M
    rcases le_total N M with h | h
    · have := ha h
      simp only at this
      linarith [hTn M]
    · linarith [hm h, hTn N]
  have hbdd : BddAbove (Set.range v) := ⟨v 0 + B * T 0, by rintro _ ⟨M, rfl⟩; exact hb 0 M⟩
  exact ⟨⨆ N, v N, tendsto_atTop_ciSup hm hbdd, fun N => ⟨le_ciSup hbdd N, ciSup_le (hb N)⟩⟩

/-- **C113.** In a scene that is a rectangular room, with a reflection coefficient in `[0, 1)`, the power that each receiver strictly inside the room gets, as a function of the maximum
order, does not decrease and converges; stopping at order `N` loses at most `4 q ^ (N + 1) (N + 1 - N q) / ((1 - q)² height²)`. -/
theorem C113_power {Key : Type} (G : GraphLib) (hG : GraphContract G) (tx rx : PyDict Pt) (ht : Distinct tx) (hr : Distinct rx)
    (x0 x1 y0 y1 : ℝ) (hx : x0 < x1) (hy : y0 < y1) (hin : ∀ r ∈ rx, InsideRoom x0 x1 y0 y1 r.2) (split : Key → ℕ → List Key) (key : Option Key)
    (E : Env) (ap : Option Bool) (hh : Hard E ap) (kw : ActKw) (tol patch : ℝ) (h0 : 0 < tol) (h1 : tol ≤ 1) (hp : -(1 / 202) ≤ patch)
    (q height : ℝ) (hq : 0 ≤ q) (hq1 : q < 1) (hht : 0 < height) :
    ∃ (value : ℕ → String × Pt → String × Pt → ℝ) (limit : String × Pt → String × Pt → ℝ),
      (∀ N : ℕ, (wallScene tx rx (roomWalls x0 x1 y0 y1)).accumulateOverPaths G split (imageMethod Key) { minOrder := 0, maxOrder := N }
        ⟨E, F.fin tol, F.fin patch, ap, kw⟩ key (powerFun E q height) = .ok ((tx ×ˢ rx).map fun p => (p.1.1, p.2.1, F.fin (value N p.1 p.2)))) ∧
      ∀ p ∈ tx ×ˢ rx, Monotone (fun N => value N p.1 p.2) ∧ Tendsto (fun N => value N p.1 p.2) atTop (nhds (limit p.1 p.2)) ∧
        ∀ N : ℕ, 0 ≤ limit p.1 p.2 - value N p.1 p.2 ∧
          limit p.1 p.2 - value N p.1 p.2 ≤ 4 * q ^ (N + 1) * (N + 1 - N * q) / ((1 - q) ^ 2 * height ^ 2) := by
  classical
  have hnd := roomWalls_ne hx hy
  have key' := fun N : ℕ => C81_power G hG tx rx ht hr (roomWalls x0 x1 y0 y1) hnd 0 N le_rfl ⟨[], ⟨by simp, by simp⟩, by simp, by simp⟩ split key E ap hh kw tol patch h0 h1 (by linarith)
    q height hht (by
      intro t ht' r hr' w hw hon heq
      rw [heq] at hon
      exact inside_off_lines (hin r hr') w hw hon)
  choose rays len hm hlen hacc using key'
  have step : ∀ p ∈ tx ×ˢ rx, ∀ N, (∑ ray ∈ rays N p.1.2 p.2.2, q ^ ray.1.length / (height ^ 2 + len N ray.2 ^ 2)) ≤
        (∑ ray ∈ rays (N + 1) p.1.2 p.2.2, q ^ ray.1.length / (height ^ 2 + len (N + 1) ray.2 ^ 2)) ∧
      (∑ ray ∈ rays (N + 1) p.1.2 p.2.2, q ^ ray.1.length / (height ^ 2 + len (N + 1) ray.2 ^ 2)) ≤
        (∑ ray ∈ rays N p.1.2 p.2.2, q ^ ray.1.length / (height ^ 2 + len N ray.2 ^ 2)) + 4 / height ^ 2 * ((N + 1) * q ^ (N + 1)) := by
    intro p hp' N
    obtain ⟨hp1, hp2⟩ := List.mem_product.mp hp'
    have hl : len (N + 1) = len N := by
      funext pts
      have a := hlen (N + 1) pts 0
      rw [hlen N pts 0] at a
      exact (F.fin.inj a).symm
    rw [hl]
    have hsub : rays N p.1.2 p.2.2 ⊆ rays (N + 1) p.1.2 p.2.2 := by
      rintro ⟨c, pts⟩ h
      obtain ⟨⟨a, b, d⟩, e⟩ := (hm N _ hp1 _ hp2 c pts).mp h
      exact (hm (N + 1) _ hp1 _ hp2 c pts).mpr ⟨⟨a, b, by push_cast; linarith⟩, e⟩
    rw [← Finset.sum_sdiff hsub]
    have hD : ∀ s ∈ rays (N + 1) p.1.2 p.2.2 \ rays N p.1.2 p.2.2, IsCandidate 4 s.1 ∧ s.1.length = N + 1 ∧ RayPath (roomWalls x0 x1 y0 y1) patch p.1.2 p.2.2 s.1 s.2 := by
      rintro ⟨c, pts⟩ hs
      obtain ⟨hs1, hs2⟩ := Finset.mem_sdiff.mp hs
      obtain ⟨⟨a, b, d⟩, e⟩ := (hm (N + 1) _ hp1 _ hp2 c pts).mp hs1
      refine ⟨a, ?_, e⟩
      by_contra hne
      exact hs2 ((hm N _ hp1 _ hp2 c pts).mpr ⟨⟨a, b, by push_cast at d; simp only at hne; omega⟩, e⟩)
    have hi := hin _ hp2
    have hcard := C112_count x0 x1 y0 y1 hx hy p.1.2 p.2.2 ⟨hi.1.le, hi.2.1.le, hi.2.2.1.le, hi.2.2.2.le⟩ patch hp (N + 1) N.succ_pos _ hD
    have hnn : 0 ≤ ∑ ray ∈ rays (N + 1) p.1.2 p.2.2 \ rays N p.1.2 p.2.2, q ^ ray.1.length / (height ^ 2 + len N ray.2 ^ 2) := Finset.sum_nonneg fun _ _ => by positivity
    have hle : ∑ ray ∈ rays (N + 1) p.1.2 p.2.2 \ rays N p.1.2 p.2.2, q ^ ray.1.length / (height ^ 2 + len N ray.2 ^ 2) ≤
        (rays (N + 1) p.1.2 p.2.2 \ rays N p.1.2 p.2.2).card • (q ^ (N + 1) / height ^ 2) := by
      refine Finset.sum_le_card_nsmul _ _ _ fun s hs => ?_
      rw [(hD s hs).2.1]
      exact div_le_div_of_nonneg_left (by positivity) (by positivity) (by linarith [sq_nonneg (len N s.2)])
    rw [nsmul_eq_mul] at hle
    have hc : ((rays (N + 1) p.1.2 p.2.2 \ rays N p.1.2 p.2.2).card : ℝ) ≤ 4 * (N + 1) := by exact_mod_cast hcard
    have hmul := mul_le_mul_of_nonneg_right hc (show 0 ≤ q ^ (N + 1) / height ^ 2 by positivity)
    have e : 4 * ((N : ℝ) + 1) * (q ^ (N + 1) / height ^ 2) = 4 / height ^ 2 * ((N + 1) * q ^ (N + 1)) := by ring
    constructor <;> linarith
  set value : ℕ → String × Pt → String × Pt → ℝ := fun N t r => ∑ ray ∈ rays N t.2 r.2, q ^ ray.1.length / (height ^ 2 + len N ray.2 ^ 2) with hv
  have hex : ∀ p : (String × Pt) × (String × Pt), ∃ L, p ∈ tx ×ˢ rx → Tendsto (fun N => value N p.1 p.2) atTop (nhds L) ∧
      ∀ N : ℕ, value N p.1 p.2 ≤ L ∧ L ≤ value N p.1 p.2 + 4 / height ^ 2 * (q ^ (N + 1) * (N + 1 - N * q) / (1 - q) ^ 2) := by
    intro p
    by_cases h : p ∈ tx ×ˢ rx
    · obtain ⟨L, hL⟩ := converges (fun N => value N p.1 p.2) q (4 / height ^ 2) hq hq1 (by positivity) (fun N => (step p h N).1) (fun N => (step p h N).2)
      exact ⟨L, fun _ => hL⟩
    · exact ⟨0, fun h' => absurd h' h⟩
  choose L hL using hex
  refine ⟨value, fun t r => L (t, r), hacc, fun p hp' => ?_⟩
  obtain ⟨l1, l2⟩ := hL p hp'
  refine ⟨monotone_nat_of_le_succ fun N => (step p hp' N).1, l1, fun N => ?_⟩
  obtain ⟨a, b⟩ := l2 N
  have hne : (1 - q) ≠ 0 := by linarith
  have e : 4 / height ^ 2 * (q ^ (N + 1) * (N + 1 - N * q) / (1 - q) ^ 2) = 4 * q ^ (N + 1) * (N + 1 - N * q) / ((1 - q) ^ 2 * height ^ 2) := by
    field_simp
  rw [← e]
  constructor <;> simp only at a b ⊢ <;> linarith

/-- Non-vacuity: the unit square, a coefficient of 1/2, one transmitter and one receiver. -/
example (E : Env) (kw : ActKw) := C113_power (Key := ℕ) refLib refLib_contract [("tx", ⟨1 / 10, 1 / 10⟩)] [("rx", ⟨1 / 2, 3 / 5⟩)] (by simp [Distinct]) (by simp [Distinct]) 0 1 0 1 one_pos one_pos
  (by intro r hr; simp only [List.mem_singleton] at hr; subst hr; norm_num [InsideRoom]) (fun _ _ => []) none E (some false) (.inl rfl) kw (1 / 100) 0 (by norm_num) (by norm_num) (by norm_num)
  (1 / 2) (1 / 10) (by norm_num) (by norm_num) (by norm_num)

end DiffeRT2d.Props
