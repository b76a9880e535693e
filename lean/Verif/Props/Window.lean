import Verif.Props.Interactive
import Verif.Props.Reorder
import Verif.Props.Presets
import Verif.Props.GeoJson

/-! # C129: the interactive application, whatever the user does -/

namespace DiffeRT2d.Props
open Classical Spec Window

variable {Key : Type} {A : App Key} {n m : String} {t r : Pt} {walls : List (Pt × Pt)} {res : ℕ} {key : Key}

/-- **C129.** The application opens on every scene of walls with one transmitter and one receiver, at any resolution and with any seed, with these
settings, and shows the map and the paths of the scene. -/
theorem C129_open (hA : GoodApp A) (n m : String) (t r : Pt) (walls : List (Pt × Pt)) (res : ℕ) (key : Key) :
    ∃ w, create A (wallScene [(n, t)] [(m, r)] walls) res key = .ok w ∧ Displays A w ∧
      w.minOrder = 0 ∧ w.maxOrder = 1 ∧ w.patch = F.fin 0 ∧ w.approx = false ∧ w.alpha = F.fin 100 ∧ w.function = .hardSigmoid ∧
      w.rCoef = F.fin (1 / 2) ∧ w.pathCls = .image := by
  obtain ⟨b, w, -, -, h1, h2, -, h3, h4, h5, h6, h7, h8, h9, h10, -⟩ := create_room hA n m t r walls res key
  exact ⟨w, h1, h2, h3, h4, h5, h6, h7, h8, h9, h10⟩

/-- **C129.** Any other number of transmitters or receivers is refused. -/
theorem C129_assert (A : App Key) (s : Scene) (h : s.transmitters.len ≠ 1 ∨ s.receivers.len ≠ 1) (res : ℕ) (key : Key) :
    create A s res key = .error .assertionError := by
  unfold create
  by_cases h1 : s.transmitters.len ≠ 1
  · rw [if_pos h1]; rfl
  · rw [if_neg h1, if_pos (h.resolve_left h1)]; rfl

/-- The invariant of an open window. -/
theorem opened (hA : GoodApp A) {w : Window Key} (h : create A (wallScene [(n, t)] [(m, r)] walls) res key = .ok w) (history : List Event) :
    ∃ X Y, gridShape X = List.replicate res 50 ∧ gridShape X = gridShape Y ∧ Always A n m t r walls X Y w ∧
      Always A n m t r walls X Y (w.run A history) ∧ Displays A (w.run A history) := by
  obtain ⟨b, w', -, -, h1, h2, h3, -⟩ := create_room hA n m t r walls res key
  rw [h] at h1
  obtain rfl := Except.ok.inj h1
  obtain ⟨g1, g2⟩ := grid_shapes b res
  obtain ⟨a1, a2⟩ := run_always hA (g1.trans g2.symm) h3 h2 history
  exact ⟨_, _, g1, g1.trans g2.symm, h3, a1, a2⟩

/-- **C129.** Whatever the user has done, the window shows the map and the paths of its scene with its current settings. -/
theorem C129_display (hA : GoodApp A) {w : Window Key} (h : create A (wallScene [(n, t)] [(m, r)] walls) res key = .ok w) (history : List Event) :
    Displays A (w.run A history) := by
  obtain ⟨_, _, -, -, -, -, h⟩ := opened hA h history
  exact h

/-- **C129.** No action raises, except a click on a marker, which always raises and changes nothing. -/
theorem C129_exceptions (hA : GoodApp A) {w : Window Key} (h : create A (wallScene [(n, t)] [(m, r)] walls) res key = .ok w) (history : List Event) (e : Event) :
    (step A (w.run A history) e).2 = none ∨ ∃ i < 2, e = .pick i := by
  obtain ⟨X, Y, -, hXY, -, h, -⟩ := opened hA h history
  rcases action_cases A h e with ⟨e, -⟩ | ⟨i, hi, he, -⟩ | ⟨w', h', e, -⟩
  · rw [e]; exact .inl rfl
  · exact .inr ⟨i, hi, he⟩
  · obtain ⟨k, cov, rays, e', -⟩ := redraw hA (h'.ready hXY)
    rw [e, e']; exact .inl rfl

/-- **C129.** The transmitter and the receiver cannot be moved: a click on either marker raises an `AttributeError` and changes nothing, moves of the
mouse do nothing, and the scene and the markers stay what they were. -/
theorem C129_drag (hA : GoodApp A) {w : Window Key} (h : create A (wallScene [(n, t)] [(m, r)] walls) res key = .ok w) (history : List Event) :
    (∀ i < 2, step A (w.run A history) (.pick i) = (w.run A history, some .attributeError)) ∧
      (∀ x y, step A (w.run A history) (.motion x y) = (w.run A history, none)) ∧
      (w.run A history).scene = wallScene [(n, t)] [(m, r)] walls ∧ (w.run A history).markers = w.markers ∧ w.markers.length = 2 := by
  obtain ⟨X, Y, -, -, h0, h, -⟩ := opened hA h history
  refine ⟨?_, ?_, h.scene, by rw [h.markers, h0.markers], by rw [h0.markers]; rfl⟩
  · intro i hi
    simp only [step, h.markers]
    match i, hi with
    | 0, _ => simp [markersOf, onPick, h.picked, getXYData, bind, Except.bind]
    | 1, _ => simp [markersOf, onPick, h.picked, getXYData, bind, Except.bind]
  · intro x y
    simp [step, onMotion, h.picked]

/-! ## Settings -/

theorem notch_range {a b : ℝ} (hab : a ≤ b) {i : ℕ} (hi : i < 100) : a ≤ notch a b i ∧ notch a b i ≤ b := by
  have h1 : (i : ℝ) / 99 ≤ 1 := by
    rw [div_le_one (by norm_num)]
    have : i ≤ 99 := by omega
    exact_mod_cast this
  have h0 : (0 : ℝ) ≤ (i : ℝ) / 99 := by positivity
  unfold notch
  constructor
  · have := mul_nonneg (sub_nonneg.mpr hab) h0; linarith
  · have := mul_le_mul_of_nonneg_left h1 (sub_nonneg.mpr hab); linarith

theorem notch_zero {i : ℕ} : notch (-1) 1 i ≠ 0 := by
  unfold notch
  intro h
  have h1 : (2 * i : ℝ) = 99 := by field_simp at h; linarith
  have : 2 * i = 99 := by exact_mod_cast h1
  omega

theorem notch_half {i : ℕ} : notch 0 1 i ≠ 1 / 2 := by
  unfold notch
  intro h
  have h1 : (2 * i : ℝ) = 99 := by field_simp at h; linarith
  have : 2 * i = 99 := by exact_mod_cast h1
  omega

/-- **C129.** Every action gives the window exactly the settings that it asks for. -/
theorem C129_obeys (hA : GoodApp A) {w : Window Key} (h : create A (wallScene [(n, t)] [(m, r)] walls) res key = .ok w) (history : List Event) (e : Event) :
    SameSettings (step A (w.run A history) e).1 (asked (w.run A history) e) := by
  obtain ⟨X, Y, -, hXY, -, h, -⟩ := opened hA h history
  exact step_asked hA hXY h e

/-- **C129.** The settings stay in their ranges: slopes from 1 to 1000, patches from -1 to 1, coefficients from 0 to 1, orders from 0 to 99. -/
theorem C129_settings (hA : GoodApp A) {w : Window Key} (h : create A (wallScene [(n, t)] [(m, r)] walls) res key = .ok w) (history : List Event) :
    (∃ a : ℝ, (w.run A history).alpha = F.fin a ∧ 1 ≤ a ∧ a ≤ 1000) ∧ (∃ p : ℝ, (w.run A history).patch = F.fin p ∧ -1 ≤ p ∧ p ≤ 1) ∧
      (∃ c : ℝ, (w.run A history).rCoef = F.fin c ∧ 0 ≤ c ∧ c ≤ 1) ∧ (w.run A history).minOrder ≤ 99 ∧ (w.run A history).maxOrder ≤ 99 := by
  obtain ⟨X, Y, -, -, -, h, -⟩ := opened hA h history
  refine ⟨⟨_, h.alpha, ?_, ?_⟩, ?_, ?_, h.minOrder, h.maxOrder⟩
  · exact Real.one_le_rpow (by norm_num) (notch_range (by norm_num) h.alphaAt).1
  · calc (10 : ℝ) ^ notch 0 3 (w.run A history).alphaSlider.index ≤ (10 : ℝ) ^ (3 : ℝ) :=
          Real.rpow_le_rpow_of_exponent_le (by norm_num) (notch_range (by norm_num) h.alphaAt).2
      _ = 1000 := by rw [show (3 : ℝ) = ((3 : ℕ) : ℝ) by norm_num, Real.rpow_natCast]; norm_num
  · rcases h.patch with e | ⟨e, -⟩
    · exact ⟨_, e, notch_range (by norm_num) h.patchAt⟩
    · exact ⟨_, e, by norm_num, by norm_num⟩
  · rcases h.coef with e | ⟨e, -⟩
    · exact ⟨_, e, notch_range (by norm_num) h.coefAt⟩
    · exact ⟨_, e, by norm_num, by norm_num⟩

/-- **C129.** The labels show the settings, except for the slope before its slider is moved: it is 100 and the label says 1. -/
theorem C129_labels (hA : GoodApp A) {w : Window Key} (h : create A (wallScene [(n, t)] [(m, r)] walls) res key = .ok w) :
    (w.alpha = F.fin 100 ∧ w.alphaLabel = F.fin 1) ∧
      ∀ history, (w.run A history).patchLabel = (w.run A history).patch ∧ (w.run A history).rCoefLabel = (w.run A history).rCoef ∧
        ((w.run A history).alphaLabel = (w.run A history).alpha ∨ (w.run A history).alphaLabel = F.fin 1 ∧ (w.run A history).alpha = F.fin 100) := by
  obtain ⟨b, w', -, -, h1, -, -, -, -, -, -, h7, -, -, -, h8, -⟩ := create_room hA n m t r walls res key
  rw [h] at h1
  obtain rfl := Except.ok.inj h1
  refine ⟨⟨h7, h8⟩, fun history => ?_⟩
  obtain ⟨X, Y, -, -, -, h, -⟩ := opened hA h history
  exact ⟨h.patchLabel, h.coefLabel, h.alphaLabel⟩

/-- **C129.** When the application opens, the sliders stand at `-1/99` and at `49/99` while the patch is 0 and the coefficient is 1/2. -/
theorem C129_sliders (hA : GoodApp A) {w : Window Key} (h : create A (wallScene [(n, t)] [(m, r)] walls) res key = .ok w) :
    w.patch = F.fin 0 ∧ w.patchSlider.value = F.fin (-1 / 99) ∧ w.rCoef = F.fin (1 / 2) ∧ w.rCoefSlider.value = F.fin (49 / 99) ∧
      w.alpha = F.fin 100 ∧ w.alphaSlider.value = F.fin 100 := by
  obtain ⟨b, w', -, -, h1, -, h2, -, -, h5, -, h7, -, h9, -, -, h11, h12⟩ := create_room hA n m t r walls res key
  rw [h] at h1
  obtain rfl := Except.ok.inj h1
  refine ⟨h5, ?_, h9, ?_, h7, ?_⟩
  · unfold Slider.value
    rw [h2.patches, h11]
    simp [notch]; norm_num
  · unfold Slider.value
    rw [h2.coefs, h12]
    simp [notch]
  · unfold Slider.value
    rw [h2.alphas, ← h7, h2.alpha]
    have := h2.alphaAt
    simp [this]

/-- The patch comes from the slider and stays so. -/
theorem patch_kept (hA : GoodApp A) {X Y : Scene.Grid F} (hXY : gridShape X = gridShape Y) {w : Window Key} (h : Always A n m t r walls X Y w)
    (hd : Displays A w) (hp : ∃ i, w.patch = F.fin (notch (-1) 1 i)) (history : List Event) : ∃ i, (w.run A history).patch = F.fin (notch (-1) 1 i) := by
  induction history generalizing w with
  | nil => exact hp
  | cons ev history ih =>
    obtain ⟨h1, h2⟩ := step_always hA hXY h hd ev
    refine ih h1 h2 ?_
    show ∃ i, (step A w ev).1.patch = _
    rcases action_cases A h ev with ⟨e, -⟩ | ⟨i, -, -, e⟩ | ⟨w', h', e, m1, m2, -⟩
    · rw [e]; exact hp
    · rw [e]; exact hp
    · obtain ⟨k, cov, rays, e', -⟩ := redraw hA (h'.ready hXY)
      rw [e, e']
      by_cases hm : MovesPatch w ev
      · exact ⟨_, m1 hm⟩
      · show ∃ i, w'.patch = _
        rw [(m2 hm).1]; exact hp

theorem coef_kept (hA : GoodApp A) {X Y : Scene.Grid F} (hXY : gridShape X = gridShape Y) {w : Window Key} (h : Always A n m t r walls X Y w)
    (hd : Displays A w) (hp : ∃ i, w.rCoef = F.fin (notch 0 1 i)) (history : List Event) : ∃ i, (w.run A history).rCoef = F.fin (notch 0 1 i) := by
  induction history generalizing w with
  | nil => exact hp
  | cons ev history ih =>
    obtain ⟨h1, h2⟩ := step_always hA hXY h hd ev
    refine ih h1 h2 ?_
    show ∃ i, (step A w ev).1.rCoef = _
    rcases action_cases A h ev with ⟨e, -⟩ | ⟨i, -, -, e⟩ | ⟨w', h', e, -, -, m1, m2⟩
    · rw [e]; exact hp
    · rw [e]; exact hp
    · obtain ⟨k, cov, rays, e', -⟩ := redraw hA (h'.ready hXY)
      rw [e, e']
      by_cases hm : MovesCoef w ev
      · exact ⟨_, m1 hm⟩
      · show ∃ i, w'.rCoef = _
        rw [(m2 hm).1]; exact hp

theorem run_append (A : App Key) (w : Window Key) (h1 h2 : List Event) : w.run A (h1 ++ h2) = (w.run A h1).run A h2 := by
  simp [run]

theorem run_cons (A : App Key) (w : Window Key) (e : Event) (h : List Event) : w.run A (e :: h) = (step A w e).1.run A h := rfl

/-- **C129.** Once the patch slider has been moved, the patch is never 0 again: the default cannot be selected. -/
theorem C129_patch_lost (hA : GoodApp A) {w : Window Key} (h : create A (wallScene [(n, t)] [(m, r)] walls) res key = .ok w) (history : List Event)
    (hm : Sometime A MovesPatch w history) : (w.run A history).patch ≠ F.fin 0 := by
  obtain ⟨before, e, after, rfl, hm⟩ := hm
  obtain ⟨X, Y, -, hXY, -, h1, hd⟩ := opened hA h before
  obtain ⟨h2, hd2⟩ := step_always hA hXY h1 hd e
  rw [run_append, run_cons]
  obtain ⟨i, hi⟩ := patch_kept hA hXY h2 hd2 (by
    rcases action_cases A h1 e with ⟨-, hn, -⟩ | ⟨i, -, he, -⟩ | ⟨w', h', e, m1, -⟩
    · exact absurd hm hn
    · subst he; exact hm.elim
    · obtain ⟨k, cov, rays, e', -⟩ := redraw hA (h'.ready hXY)
      rw [e, e']
      exact ⟨_, m1 hm⟩) after
  rw [hi]
  exact fun h => notch_zero (F.fin.inj h)

/-- **C129.** Once the slider of the reflection coefficient has been moved, the coefficient is never 1/2 again. -/
theorem C129_coef_lost (hA : GoodApp A) {w : Window Key} (h : create A (wallScene [(n, t)] [(m, r)] walls) res key = .ok w) (history : List Event)
    (hm : Sometime A MovesCoef w history) : (w.run A history).rCoef ≠ F.fin (1 / 2) := by
  obtain ⟨before, e, after, rfl, hm⟩ := hm
  obtain ⟨X, Y, -, hXY, -, h1, hd⟩ := opened hA h before
  obtain ⟨h2, hd2⟩ := step_always hA hXY h1 hd e
  rw [run_append, run_cons]
  obtain ⟨i, hi⟩ := coef_kept hA hXY h2 hd2 (by
    rcases action_cases A h1 e with ⟨-, -, hn⟩ | ⟨i, -, he, -⟩ | ⟨w', h', e, -, -, m1, -⟩
    · exact absurd hm hn
    · subst he; exact hm.elim
    · obtain ⟨k, cov, rays, e', -⟩ := redraw hA (h'.ready hXY)
      rw [e, e']
      exact ⟨_, m1 hm⟩) after
  rw [hi]
  exact fun h => notch_half (F.fin.inj h)

/-- **C129.** The slope, in contrast, can always be set to 100 again, with its slider at the position 66. -/
theorem C129_alpha_again (hA : GoodApp A) {w : Window Key} (h : create A (wallScene [(n, t)] [(m, r)] walls) res key = .ok w) (history : List Event) :
    (step A (w.run A history) (.alphaSlider 66)).1.alpha = F.fin 100 := by
  obtain ⟨X, Y, -, hXY, -, h1, hd⟩ := opened hA h history
  obtain ⟨h2, -⟩ := step_always hA hXY h1 hd (.alphaSlider 66)
  have h66 : (10 : ℝ) ^ notch 0 3 66 = 100 := by
    have : notch 0 3 66 = ((2 : ℕ) : ℝ) := by unfold notch; norm_num
    rw [this, Real.rpow_natCast]; norm_num
  have hi : (step A (w.run A history) (.alphaSlider 66)).1.alphaSlider.index = 66 := by
    have e := moveTo_index h1.alphas 66
    simp only [step]
    by_cases hc : ((w.run A history).alphaSlider.moveTo 66).index = (w.run A history).alphaSlider.index
    · rw [if_pos hc]
      show (w.run A history).alphaSlider.index = 66
      rw [← hc, e]
      rfl
    · have h3 : Always A n m t r walls X Y { w.run A history with alphaSlider := (w.run A history).alphaSlider.moveTo 66, alpha := ((w.run A history).alphaSlider.moveTo 66).value, alphaLabel := ((w.run A history).alphaSlider.moveTo 66).value } := by
        obtain ⟨_, _, _, _, _, h6, _, _, _, _, _, _, _, _, _, _, _, _, _⟩ := h1
        constructor <;> first | assumption | skip
        · show ((w.run A history).alphaSlider.moveTo 66).index < 100
          rw [e]; norm_num
        · show ((w.run A history).alphaSlider.moveTo 66).value = F.fin ((10 : ℝ) ^ notch 0 3 ((w.run A history).alphaSlider.moveTo 66).index)
          rw [moveTo_value h6, e]
        · exact .inl rfl
      obtain ⟨k, cov, rays, e', -⟩ := redraw hA (h3.ready hXY)
      rw [if_neg hc, e']
      exact e
  rw [h2.alpha, hi, h66]

/-- **C129.** The map has as many rows as the resolution, and always 50 columns. -/
theorem C129_resolution (hA : GoodApp A) {w : Window Key} (h : create A (wallScene [(n, t)] [(m, r)] walls) res key = .ok w) (history : List Event) :
    gridShape (w.run A history).X = List.replicate res 50 ∧ gridShape (w.run A history).Y = List.replicate res 50 ∧
      (w.run A history).X = w.X ∧ (w.run A history).Y = w.Y := by
  obtain ⟨X, Y, h1, h2, h0, h, -⟩ := opened hA h history
  rw [h.gridX, h.gridY, h0.gridX, h0.gridY]
  exact ⟨h1, by rw [← h2, h1], rfl, rfl⟩

/-! ## The picture depends on the settings only -/

theorem allPaths_keys (hA : GoodApp A) (s : Scene) (tx rx : PyDict (V2 F)) (ht : Distinct tx) (hr : Distinct rx) (h1 : s.transmitters = .fromMapping tx)
    (h2 : s.receivers = .fromMapping rx) (mth : Scene.PathMethod Key) (hk : KeyIndependent mth) (o : Scene.Orders) (ho : NonNegative o) (v : Scene.ValidOpts)
    (k k' : Option Key) : s.allPaths A.G A.split mth o v k = s.allPaths A.G A.split mth o v k' := by
  obtain ⟨cs, hcs, hc⟩ := orders_candidates A.G hA.graph s o ho
  have hl : ∀ e ∈ (tx ×ˢ rx) ×ˢ cs, IsCandidate s.objects.length e.2 := fun e he => hc _ (List.mem_product.mp he).2
  rw [allPaths_eq A.G s tx rx ht hr h1 h2 o cs hcs, allPaths_eq A.G s tx rx ht hr h1 h2 o cs hcs, tracePaths_turns s mth hk v A.split _ hl,
    tracePaths_turns s mth hk v A.split _ hl]

theorem grid_keys (hA : GoodApp A) (s : Scene) (tx : PyDict (V2 F)) (ht : Distinct tx) (h1 : s.transmitters = .fromMapping tx)
    (mth : Scene.PathMethod Key) (hk : KeyIndependent mth) (o : Scene.Orders) (ho : NonNegative o) (v : Scene.ValidOpts) (f : Scene.PathFun)
    (X Y : Scene.Grid F) (k k' : Option Key) :
    s.accumulateOnReceiversGridAll A.G A.split mth o v k A.gradOp false false f X Y =
      s.accumulateOnReceiversGridAll A.G A.split mth o v k' A.gradOp false false f X Y := by
  obtain ⟨cs, hcs, hc⟩ := orders_candidates A.G hA.graph s o ho
  have hl : ∀ k : Option Key, ∀ e ∈ cs.zip (Scene.gridKeys A.split k cs.length), IsCandidate s.objects.length e.1 :=
    fun k e he => hc e.1 (List.of_mem_zip he).1
  have hf : ∀ k : Option Key, (cs.zip (Scene.gridKeys A.split k cs.length)).map Prod.fst = cs := by
    intro k
    rw [List.map_fst_zip]
    rw [gridKeys_length A.split hA.split k cs.length]
  unfold Scene.accumulateOnReceiversGridAll
  rw [receivers_eq A.G s tx ht h1 o cs hcs, receivers_eq A.G s tx ht h1 o cs hcs]
  have e : (fun t r => s.facc mth v f t r 0 (cs.zip (Scene.gridKeys A.split k cs.length))) =
      fun t r => s.facc mth v f t r 0 (cs.zip (Scene.gridKeys A.split k' cs.length)) := by
    funext t r
    rw [facc_turns s mth hk v f t r _ (hl k), facc_turns s mth hk v f t r _ (hl k'), hf, hf]
  rw [e]

theorem image_keys : KeyIndependent (imageMethod Key) := fun _ _ _ _ _ => rfl

/-- **C129.** With the image method, the picture is determined by the settings: two windows on the same scene with the same settings show the same,
whatever the seeds and whatever was done before. -/
theorem C129_no_memory (hA : GoodApp A) {w w' : Window Key} {key' : Key} (h : create A (wallScene [(n, t)] [(m, r)] walls) res key = .ok w)
    (h' : create A (wallScene [(n, t)] [(m, r)] walls) res key' = .ok w') (history history' : List Event)
    (hs : SameSettings (w.run A history) (w'.run A history')) (hi : (w.run A history).pathCls = .image) :
    (w.run A history).coverage = (w'.run A history').coverage ∧ (w.run A history).pathArtists = (w'.run A history').pathArtists := by
  obtain ⟨b, w1, hb, -, c1, -, a1, -⟩ := create_room hA n m t r walls res key
  rw [h] at c1
  obtain rfl := Except.ok.inj c1
  obtain ⟨b', w1, hb', -, c1, -, a2, -⟩ := create_room hA n m t r walls res key'
  rw [h'] at c1
  obtain rfl := Except.ok.inj c1
  obtain rfl : b = b' := by rw [hb] at hb'; exact Except.ok.inj hb'
  obtain ⟨g1, g2, g3, g4⟩ := C129_resolution hA h history
  obtain ⟨k1, k2, k3, k4⟩ := C129_resolution hA h' history'
  have s1 := (C129_drag hA h history).2.2.1
  have s2 := (C129_drag hA h' history').2.2.1
  obtain ⟨⟨ka, P, rest, m1, m2⟩, ⟨kb, ts, m3, m4⟩⟩ := C129_display hA h history
  obtain ⟨⟨ka', P', rest', m1', m2'⟩, ⟨kb', ts', m3', m4'⟩⟩ := C129_display hA h' history'
  obtain ⟨q1, q2, q3, q4, q5, q6, q7, q8⟩ := hs
  have eX : (w.run A history).X = (w'.run A history').X := by rw [g3, k3, a1.gridX, a2.gridX]
  have eY : (w.run A history).Y = (w'.run A history').Y := by rw [g4, k4, a1.gridY, a2.gridY]
  have d1 : Distinct (finPoints [(n, t)]) := by simp [Distinct, finPoints]
  have d2 : Distinct (finPoints [(m, r)]) := by simp [Distinct, finPoints]
  rw [← q1, ← q2, ← q3, ← q4, ← q5, ← q6, ← q7, ← q8, s2, ← eX, ← eY, hi] at m1'
  rw [s1, hi] at m1
  rw [← q1, ← q2, ← q3, ← q4, ← q5, ← q6, ← q8, s2, hi] at m3'
  rw [s1, hi] at m3
  have f1 := grid_keys hA (wallScene [(n, t)] [(m, r)] walls) _ d1 rfl (imageMethod Key) image_keys
    { minOrder := (w.run A history).minOrder, maxOrder := (w.run A history).maxOrder } (by simp [NonNegative])
    { E := A.E, patch := (w.run A history).patch, approx := some (w.run A history).approx, kw := ⟨(w.run A history).alpha, (w.run A history).function.function⟩ }
    (fun t r path objects => receivedPower A.E t r path (objects.map Obj.interact) (w.run A history).rCoef) (w.run A history).X (w.run A history).Y (some ka) (some ka')
  have f2 := allPaths_keys hA (wallScene [(n, t)] [(m, r)] walls) _ _ d1 d2 rfl rfl (imageMethod Key) image_keys
    { minOrder := (w.run A history).minOrder, maxOrder := (w.run A history).maxOrder } (by simp [NonNegative])
    { E := A.E, patch := (w.run A history).patch, approx := some (w.run A history).approx, kw := ⟨(w.run A history).alpha, (w.run A history).function.function⟩ }
    (some kb) (some kb')
  have z1 := (m1.symm.trans f1).trans m1'
  have z2 := (m3.symm.trans f2).trans m3'
  obtain ⟨e1, -⟩ := Prod.mk.inj (Except.ok.inj z1)
  obtain rfl := Option.some.inj e1
  obtain rfl := Except.ok.inj z2
  exact ⟨m2.trans m2'.symm, m4.trans m4'.symm⟩

/-- **C129.** In hard mode the rays that are drawn opaque are the valid paths, and the others are drawn invisible. -/
theorem C129_visible (hA : GoodApp A) {w : Window Key} (h : create A (wallScene [(n, t)] [(m, r)] walls) res key = .ok w) (history : List Event)
    (hard : (w.run A history).approx = false) :
    ∃ (k : Key) (ts : List Scene.Traced),
      (wallScene [(n, t)] [(m, r)] walls).allPaths A.G A.split ((w.run A history).pathCls.method A)
        { minOrder := (w.run A history).minOrder, maxOrder := (w.run A history).maxOrder }
        { E := A.E, patch := (w.run A history).patch, approx := some false, kw := ⟨(w.run A history).alpha, (w.run A history).function.function⟩ } (some k) = .ok ts ∧
      (w.run A history).pathArtists = ts.map rayOf ∧
      ∀ x ∈ ts, (x.valid = .b true ∧ opacity (rayOf x) = some (.num 1)) ∨ (x.valid = .b false ∧ opacity (rayOf x) = some (.num 0)) := by
  obtain ⟨⟨-, -, -, -, -⟩, ⟨k, ts, m3, m4⟩⟩ := C129_display hA h history
  have s1 := (C129_drag hA h history).2.2.1
  obtain ⟨a, ha, h1, -⟩ := (C129_settings hA h history).1
  rw [s1, hard] at m3
  refine ⟨k, ts, m3, m4, ?_⟩
  have d1 : Distinct (finPoints [(n, t)]) := by simp [Distinct, finPoints]
  have d2 : Distinct (finPoints [(m, r)]) := by simp [Distinct, finPoints]
  obtain ⟨cs, hcs, hc⟩ := orders_candidates A.G hA.graph (wallScene [(n, t)] [(m, r)] walls)
    { minOrder := (w.run A history).minOrder, maxOrder := (w.run A history).maxOrder } (by simp [NonNegative])
  rw [allPaths_eq A.G _ _ _ d1 d2 rfl rfl _ cs hcs] at m3
  obtain ⟨ts', h3, h4⟩ := tracePaths_keyed hA (w.run A history).pathCls (wallScene_objects [(n, t)] [(m, r)] walls) VALID_TOL (w.run A history).patch false
    (kw := ⟨(w.run A history).alpha, (w.run A history).function.function⟩) ⟨good_function _, a, by linarith, ha⟩
    ((finPoints [(n, t)] ×ˢ finPoints [(m, r)]).flatMap fun pair => cs.map fun c => (pair, c)) (fun e he => by
      obtain ⟨p, -, he⟩ := List.mem_flatMap.mp he
      obtain ⟨c, hc', rfl⟩ := List.mem_map.mp he
      exact hc c hc') k
  obtain rfl := Except.ok.inj (m3.symm.trans h3)
  intro x hx
  obtain ⟨b, hb⟩ := (h4 x hx).2 rfl
  cases b with
  | true => exact .inl ⟨hb, by simp [opacity, rayOf, hb, Truthy.toF, List.lookup]⟩
  | false => exact .inr ⟨hb, by simp [opacity, rayOf, hb, Truthy.toF, List.lookup]⟩

/-! ## What a cell of the map says -/

theorem toDB_fin {p : ℝ} (hp : 0 ≤ p) : 10 * (F.fin p / P0).log10 = decibels p := by
  have h0 : P0 = F.fin 100 := by unfold P0; simp only [OfScientific.ofScientific]; norm_num
  have h10 : (10 : F) = F.fin 10 := F.ofNat_eq 10
  have hn : ¬ p / 100 < 0 := not_lt.mpr (by positivity)
  have hl : (F.fin (p / 100)).log10 = if p / 100 = 0 then F.ninf else F.fin (Real.logb 10 (p / 100)) := by
    simp only [F.log10, if_neg hn]
  rw [h0, F.fin_div _ (by norm_num), h10, hl]
  unfold decibels
  by_cases h : p = 0
  · rw [if_pos (by simp [h]), if_pos h]
    have : ¬ (10 : ℝ) = 0 := by norm_num
    have h2 : (0 : ℝ) < 10 := by norm_num
    show F.mul (F.fin 10) F.ninf = _
    simp [F.mul]
  · rw [if_neg (by simpa using h), if_neg h]
    rfl

/-- The total power at a place: finite and not negative, whatever the key. -/
theorem power_total (hA : GoodApp A) (n : String) (t q : Pt) (walls : List (Pt × Pt)) (lo hi : ℕ) (patch : F) (ap : Bool) (kw : ActKw) (hk : GoodKw kw)
    {c : ℝ} (hc : 0 ≤ c) :
    ∃ p : ℝ, 0 ≤ p ∧ ∀ k : Option Key, (wallScene [(n, t)] [("rx", q)] walls).accumulateOverPathsAll A.G A.split (imageMethod Key) { minOrder := lo, maxOrder := hi }
      { E := A.E, patch := patch, approx := some ap, kw := kw } k (fun t r path objects => receivedPower A.E t r path (objects.map Obj.interact) (F.fin c)) =
      .ok (F.fin p) := by
  have hH : DEFAULT_HEIGHT = F.fin (1 / 10) := by unfold DEFAULT_HEIGHT; simp only [OfScientific.ofScientific]; norm_num
  have hol : (wallScene [(n, t)] [("rx", q)] walls).objects.length = walls.length := by rw [wallScene_objects]; simp [wallsOf]
  obtain ⟨cs, hcs, hcd, hcm, -⟩ := C53_sound_complete A.G hA.graph (wallScene [(n, t)] [("rx", q)] walls) lo hi (by simp)
  rw [hol] at hcm
  have hd : ∀ c ∈ cs, ∃ (d : ℝ) (v : Truthy), (finitePath (rpath t q (wallsAt walls c)) (scores (wallsAt walls c) (rpath t q (wallsAt walls c))).sum).isValid A.E
      ((wallsOf walls).map Obj.interact) c ((wallsOf (wallsAt walls c)).map Obj.interact) VALID_TOL patch (some ap) kw = .ok v ∧ v.toF = F.fin d ∧ 0 ≤ d := by
    intro c hc
    have hin := ((hcm c).mp hc).1
    have hl := wallsAt_length hin
    obtain ⟨v, d, h1, h2, h3, -⟩ := validity_degree (wallScene [(n, t)] [("rx", q)] walls) walls (wallsAt walls c) (wallScene_objects _ _ _) A.E VALID_TOL patch ap kw hk
      (finitePath (rpath t q (wallsAt walls c)) (scores (wallsAt walls c) (rpath t q (wallsAt walls c))).sum) c hl
      (by simp [finitePath, rpath_length, hl])
    unfold Scene.validity at h1
    rw [wallScene_objects] at h1
    exact ⟨d, v, h1, h2, h3⟩
  choose! deg v hv1 hv2 hv3 using hd
  refine ⟨(cs.map fun x => deg x * (c ^ ((rpath t q (wallsAt walls x)).length - 2) / ((1 / 10) ^ 2 + plen A.E.eps (rpath t q (wallsAt walls x)) ^ 2))).sum, ?_, ?_⟩
  · refine List.sum_nonneg fun y hy => ?_
    obtain ⟨x, hx, rfl⟩ := List.mem_map.mp hy
    have := hv3 x hx
    positivity
  · intro k
    by_cases hne : cs = []
    · subst hne
      have hS : IsScene (wallScene [(n, t)] [("rx", q)] walls) := ⟨⟨finPoints [(n, t)], by simp [Distinct, finPoints], rfl⟩, ⟨finPoints [("rx", q)], by simp [Distinct, finPoints], rfl⟩⟩
      rw [C58_reduce, C59_no_candidates A.G _ hS _ hcs]
      show Except.ok (F.sum []) = _
      simp [F.sum, F.zero_eq]
    · have := accumulate_walls A.G hA.graph [(n, t)] [("rx", q)] (by simp [Distinct]) (by simp [Distinct]) walls lo hi (by simp) cs hcs hcd hcm hne A.split k
        { E := A.E, patch := patch, approx := some ap, kw := kw } (powerFun A.E c (1 / 10)) _ (realFun_power A.E c (1 / 10) (by norm_num)) (fun _ _ x => deg x)
        (by
          intro t' ht' r' hr' x hx
          simp only [List.mem_singleton] at ht' hr'
          subst ht' hr'
          exact ⟨v x hx, hv1 x hx, hv2 x hx⟩)
      have e : powerFun A.E c (1 / 10) = fun t r path objects => receivedPower A.E t r path (objects.map Obj.interact) (F.fin c) := by
        funext t r path objects
        unfold powerFun
        rw [← hH]
      rw [e] at this
      rw [C58_reduce, this]
      show Except.ok (F.sum [F.fin _]) = _
      simp [F.sum, F.zero_eq]

/-- **C129.** With the image method, each cell of the map shows, in decibels, the power that `accumulate_over_paths` gives when the only receiver is at
the point of the cell, with the current settings; no path is minus infinity. -/
theorem C129_cells (hA : GoodApp A) {w : Window Key} (h : create A (wallScene [(n, t)] [(m, r)] walls) res key = .ok w) (history : List Event)
    (hi : (w.run A history).pathCls = .image) (a b : ℕ) (ha : a < res) (hb : b < 50) :
    ∃ (x y p : ℝ), gridAt (w.run A history).X a b = some (F.fin x) ∧ gridAt (w.run A history).Y a b = some (F.fin y) ∧ 0 ≤ p ∧
      gridAt (w.run A history).coverage a b = some (decibels p) ∧
      ∃ s', (wallScene [(n, t)] [(m, r)] walls).withReceivers [("rx", ⟨F.fin x, F.fin y⟩)] = .ok s' ∧
        ∀ k, s'.accumulateOverPathsAll A.G A.split (imageMethod Key)
          { minOrder := (w.run A history).minOrder, maxOrder := (w.run A history).maxOrder }
          { E := A.E, patch := (w.run A history).patch, approx := some (w.run A history).approx,
            kw := ⟨(w.run A history).alpha, (w.run A history).function.function⟩ } k
          (fun t r path objects => receivedPower A.E t r path (objects.map Obj.interact) (w.run A history).rCoef) = .ok (F.fin p) := by
  obtain ⟨bx, w1, hbx, ⟨lo, hi', rfl, hin, -⟩, c1, -, a1, -⟩ := create_room hA n m t r walls res key
  rw [h] at c1
  obtain rfl := Except.ok.inj c1
  have hlo := hin t (by simp)
  obtain ⟨x, y, hx, hy, -⟩ := C26_grid lo hi' (hlo.1.trans hlo.2.1) (hlo.2.2.1.trans hlo.2.2.2) 50 res a b ha hb
  obtain ⟨g1, g2, g3, g4⟩ := C129_resolution hA h history
  have hX : gridAt (w.run A history).X a b = some (F.fin x) := by rw [g3, a1.gridX]; exact hx
  have hY : gridAt (w.run A history).Y a b = some (F.fin y) := by rw [g4, a1.gridY]; exact hy
  have s1 := (C129_drag hA h history).2.2.1
  obtain ⟨⟨al, hal, al1, -⟩, -, ⟨c, hcf, hc0, -⟩, -⟩ := C129_settings hA h history
  obtain ⟨⟨ka, P, rest, m1, m2⟩, -⟩ := C129_display hA h history
  rw [s1, hi, hcf] at m1
  have hw : (wallScene [(n, t)] [(m, r)] walls).withReceivers [("rx", ⟨F.fin x, F.fin y⟩)] = .ok (wallScene [(n, t)] [("rx", ⟨x, y⟩)] walls) := by
    unfold Scene.withReceivers Scene.bindKwargs
    rw [if_neg (by simp)]; rfl
  obtain ⟨p, hp, hacc⟩ := power_total hA n t ⟨x, y⟩ walls (w.run A history).minOrder (w.run A history).maxOrder (w.run A history).patch (w.run A history).approx
    ⟨(w.run A history).alpha, (w.run A history).function.function⟩ ⟨good_function _, al, by linarith, hal⟩ hc0
  refine ⟨x, y, p, hX, hY, hp, ?_, _, hw, ?_⟩
  swap
  · rw [hcf]; exact hacc
  suffices hP : gridAt P a b = some (F.fin p) by
    rw [m2]
    unfold gridAt at hP ⊢
    rw [List.getElem?_map]
    cases hr : P[a]? with
    | none => rw [hr] at hP; cases hP
    | some row =>
      rw [hr] at hP
      simp only [Option.bind_some] at hP
      simp only [Option.map_some, Option.bind_some, List.getElem?_map, hP]
      rw [toDB_fin hp]
  have d1 : Distinct (finPoints [(n, t)]) := by simp [Distinct, finPoints]
  obtain ⟨cs, hcs, -⟩ := orders_candidates A.G hA.graph (wallScene [(n, t)] [(m, r)] walls)
    { minOrder := (w.run A history).minOrder, maxOrder := (w.run A history).maxOrder } (by simp [NonNegative])
  obtain ⟨out, hout⟩ : ∃ out, (wallScene [(n, t)] [(m, r)] walls).accumulateOnReceiversGrid A.G A.split (imageMethod Key)
      { minOrder := (w.run A history).minOrder, maxOrder := (w.run A history).maxOrder }
      { E := A.E, patch := (w.run A history).patch, approx := some (w.run A history).approx, kw := ⟨(w.run A history).alpha, (w.run A history).function.function⟩ }
      (some ka) A.gradOp false false (fun t r path objects => receivedPower A.E t r path (objects.map Obj.interact) (F.fin c)) (w.run A history).X (w.run A history).Y = .ok out := by
    have m1' := m1
    simp only [PathClass.method] at m1'
    unfold Scene.accumulateOnReceiversGridAll at m1'
    revert m1'
    generalize Scene.accumulateOnReceiversGrid _ _ _ _ _ _ _ _ _ _ _ _ _ = z
    intro m1'
    cases z with
    | error e => cases m1'
    | ok out => exact ⟨out, rfl⟩
  have key : ∃ z, out = [(n, .value z)] ∧ ∃ q, gridAt z a b = some q ∧ q = F.fin p := by
    by_cases hne : cs = []
    · subst hne
      obtain ⟨zs, e1, e2, e3⟩ := C60_receivers_no_candidates A.G _ (finPoints [(n, t)]) d1 rfl _ hcs A.split (some ka) _ _ _ A.gradOp _ _ out hout
      match zs, e2 with
      | [z], _ =>
        refine ⟨z, e1, 0, (e3 z (by simp)).2 a b _ _ hX hY, ?_⟩
        have h0 := hacc none
        have hS : IsScene (wallScene [(n, t)] [("rx", ⟨x, y⟩)] walls) := ⟨⟨finPoints [(n, t)], d1, rfl⟩, ⟨finPoints [("rx", ⟨x, y⟩)], by simp [Distinct, finPoints], rfl⟩⟩
        rw [C58_reduce, C59_no_candidates A.G _ hS _ hcs] at h0
        have h0 : F.sum [] = F.fin p := Except.ok.inj h0
        rw [← h0]; simp [F.sum, F.zero_eq]
    · obtain ⟨zs, e1, e2, -, -, e3⟩ := C60_receivers A.G hA.graph _ (finPoints [(n, t)]) d1 rfl _ (by simp [NonNegative]) cs hcs hne A.split hA.split (some ka) _ image_keys _ _
        A.gradOp _ _ out hout
      match zs, e2 with
      | [z], _ =>
        obtain ⟨s', hs', hes⟩ := e3 a b _ _ hX hY
        rw [hw] at hs'
        obtain rfl := Except.ok.inj hs'
        obtain ⟨es, he1, he2⟩ := hes none
        refine ⟨z, e1, ?_⟩
        have h0 := hacc none
        rw [C58_reduce, he1] at h0
        have h0 := Except.ok.inj h0
        have hl : es.length = 1 := by
          have := congrArg List.length he2
          simpa [finPoints] using this
        obtain ⟨e, rfl⟩ := List.length_eq_one_iff.mp hl
        have hg : some e.2.2 = gridAt z a b := by
          have := (List.cons.inj he2).1
          exact (Prod.mk.inj this).2
        refine ⟨e.2.2, hg.symm, ?_⟩
        have h0 : F.sum [e.2.2] = F.fin p := h0
        rw [← h0]
        show e.2.2 = F.fin 0 + e.2.2
        cases e.2.2 with
        | fin z => rw [F.fin_add, zero_add]
        | _ => rfl
  obtain ⟨z, rfl, q, hq, rfl⟩ := key
  obtain ⟨Z, hZ, -, hZ2⟩ := C60_receivers_reduce A.G _ (finPoints [(n, t)]) d1 rfl _ cs hcs A.split (some ka) _ _ _ A.gradOp _ _ [z] rfl hout
  have e := (Prod.mk.inj (Except.ok.inj (hZ.symm.trans m1))).1
  obtain ⟨z', hz', -, hz''⟩ := hZ2 (by simp [finPoints])
  rw [e] at hz'
  obtain rfl := Option.some.inj hz'
  rw [hz'' a b [F.fin p] (by simp [hq])]
  simp [F.sum]

/-! ## The scenes that can be chosen -/

theorem shapes_walls (tx rx : PyDict Pt) (shapes : List Shape) (h : ∀ x ∈ shapes, ∃ a b, x = .wall a b) :
    ∃ walls, sceneOf tx rx shapes = wallScene tx rx walls := by
  have : ∃ walls : List (Pt × Pt), shapes = walls.map fun w => .wall w.1 w.2 := by
    induction shapes with
    | nil => exact ⟨[], rfl⟩
    | cons x shapes ih =>
      obtain ⟨walls, e⟩ := ih fun y hy => h y (List.mem_cons_of_mem _ hy)
      obtain ⟨a, b, rfl⟩ := h x List.mem_cons_self
      exact ⟨(a, b) :: walls, by rw [e]; rfl⟩
  obtain ⟨walls, e⟩ := this
  exact ⟨walls, by rw [e]; rfl⟩

theorem polygon_walls (ps : List Pt) : ∀ x ∈ closedPolygon ps, ∃ a b, x = Shape.wall a b := by
  intro x hx
  unfold closedPolygon at hx
  obtain ⟨i, hi, rfl⟩ := List.getElem_of_mem hx
  simp

/-- **C129.** Every scene that the command line can choose by name is a scene of walls with one transmitter and one receiver, so the application
opens on it. -/
theorem C129_names (name : String) (h : name ∈ ["basic_scene", "square_scene", "square_scene_with_wall", "square_scene_with_obstacle"]) :
    ∃ t r walls, Scene.fromSceneName name {} = some (.ok (wallScene [("tx", t)] [("rx", r)] walls)) := by
  have lit : ∀ (a : ℕ) (b : ℕ), ∃ x : ℝ, (OfScientific.ofScientific a true b : F) = F.fin x := fun a b => ⟨_, F.ofScientific_eq a true b⟩
  have pt : ∀ a b : F, (∃ x : ℝ, a = F.fin x) → (∃ y : ℝ, b = F.fin y) → ∃ p : Pt, (⟨a, b⟩ : V2 F) = V2.fin p := by
    rintro a b ⟨x, rfl⟩ ⟨y, rfl⟩
    exact ⟨⟨x, y⟩, rfl⟩
  obtain ⟨-, -, -, -, e1, e2, e3, e4, -⟩ := C67_by_name 0 ⟨0, 0⟩ ⟨0, 0⟩
  simp only [List.mem_cons, List.not_mem_nil, or_false] at h
  rcases h with rfl | rfl | rfl | rfl
  · rw [e1]
    obtain ⟨t, ht⟩ := pt 0.1 0.1 (lit 1 1) (lit 1 1)
    obtain ⟨r, hr⟩ := pt 0.302 0.2147 (lit 302 3) (lit 2147 4)
    rw [ht, hr]
    refine ⟨t, r, [(⟨0, 0⟩, ⟨1, 0⟩), (⟨1, 0⟩, ⟨1, 1⟩), (⟨1, 1⟩, ⟨0, 1⟩), (⟨0, 1⟩, ⟨0, 0⟩), (⟨2 / 5, 0⟩, ⟨2 / 5, 2 / 5⟩), (⟨2 / 5, 2 / 5⟩, ⟨3 / 10, 2 / 5⟩),
      (⟨1 / 10, 2 / 5⟩, ⟨0, 2 / 5⟩)], ?_⟩
    unfold Scene.basicScene
    rw [lit_00, lit_10, lit_01, lit_03, lit_04]
    rfl
  · rw [e2]
    obtain ⟨t, ht⟩ := pt 0.2 0.2 (lit 2 1) (lit 2 1)
    obtain ⟨r, hr⟩ := pt 0.5 0.6 (lit 5 1) (lit 6 1)
    rw [ht, hr, C67_square]
    obtain ⟨walls, e⟩ := shapes_walls [("tx", t)] [("rx", r)] _ (polygon_walls (squareCorners roomCentre 1))
    exact ⟨t, r, walls, by rw [e]⟩
  · rw [e3]
    obtain ⟨t, ht⟩ := pt 0.2 0.5 (lit 2 1) (lit 5 1)
    obtain ⟨r, hr⟩ := pt 0.8 0.5 (lit 8 1) (lit 5 1)
    obtain ⟨q, hq⟩ := lit 6 1
    obtain ⟨a, b, hs, -⟩ := C67_wall q t r
    obtain ⟨walls, e⟩ := shapes_walls [("tx", t)] [("rx", r)] (closedPolygon (squareCorners roomCentre 1) ++ [.wall a b]) (by
      intro x hx
      rcases List.mem_append.mp hx with hx | hx
      · exact polygon_walls _ x hx
      · exact ⟨a, b, by simpa using hx⟩)
    exact ⟨t, r, walls, by rw [ht, hr, hq, hs, e]⟩
  · rw [e4]
    obtain ⟨t, ht⟩ := pt 0.2 0.2 (lit 2 1) (lit 2 1)
    obtain ⟨r, hr⟩ := pt 0.5 0.6 (lit 5 1) (lit 6 1)
    obtain ⟨q, hq⟩ := lit 1 1
    obtain ⟨walls, e⟩ := shapes_walls [("tx", t)] [("rx", r)] (closedPolygon (squareCorners roomCentre 1) ++ closedPolygon (squareCorners roomCentre q)) (by
      intro x hx
      rcases List.mem_append.mp hx with hx | hx
      · exact polygon_walls _ x hx
      · exact polygon_walls _ x hx)
    exact ⟨t, r, walls, by rw [ht, hr, hq, C67_obstacle, e]⟩

/-- **C129.** So is every scene read from a file whose features are polygons, or contribute nothing. -/
theorem C129_file (doc : Json) (features : List Json) (rings : List (List Pt)) (txLoc rxLoc : Loc) (hd : Document doc features)
    (hf : List.Forall₂ Contributes features rings) :
    ∃ t r walls, fromGeojson (.readable doc) txLoc rxLoc = .ok (wallScene [("tx", t)] [("rx", r)] walls) := by
  rw [(C63_sources doc txLoc rxLoc).1]
  by_cases hne : rings.flatMap ringShapes = []
  · exact ⟨_, _, [], C63_empty doc features rings txLoc rxLoc hd hf hne⟩
  · obtain ⟨box, tx, rx, -, -, -, h⟩ := C63_walls doc features rings txLoc rxLoc hd hf hne
    obtain ⟨walls, e⟩ := shapes_walls [("tx", tx)] [("rx", rx)] (rings.flatMap ringShapes) (by
      intro x hx
      obtain ⟨ps, -, hx⟩ := List.mem_flatMap.mp hx
      obtain ⟨ab, -, rfl⟩ := List.mem_map.mp hx
      exact ⟨_, _, rfl⟩)
    exact ⟨tx, rx, walls, by rw [h, e]⟩

/-! ## Non-vacuity -/

/-- An application for the examples. -/
noncomputable def exApp : App KeyTerm :=
  { E := ⟨false, 0⟩, G := refLib, split := KeyTerm.split, gradOp := fun _ p => p,
    M := ⟨adam (F.fin 0.1), 100, fun _ x => x, fun _ n => List.replicate n (F.fin 0.25), KeyTerm.split⟩, userPlot := fun _ _ _ => .ok [] }

theorem exApp_good : GoodApp exApp :=
  ⟨refLib_contract, fun _ _ => by simp [exApp, KeyTerm.split], ⟨by simp [exApp], le_rfl, by simp [exApp, KeyTerm.split], by simp [exApp], adam_shaped _, by simp [exApp, KeyTerm.split]⟩⟩

/-- A room with one wall, a patch slider moved away and back, a new method and a click. -/
example : ∃ w, create exApp (wallScene [("tx", ⟨0, 0⟩)] [("rx", ⟨2, 1⟩)] [(⟨0, 3⟩, ⟨2, 3⟩)]) 150 .user = .ok w ∧
    (w.run exApp [.patchSlider 0, .method .FPT, .pick 0, .patchSlider 49]).patch ≠ F.fin 0 ∧
    Displays exApp (w.run exApp [.patchSlider 0, .method .FPT, .pick 0, .patchSlider 49]) := by
  obtain ⟨w, h, -⟩ := C129_open exApp_good "tx" "rx" ⟨0, 0⟩ ⟨2, 1⟩ [(⟨0, 3⟩, ⟨2, 3⟩)] 150 .user
  refine ⟨w, h, C129_patch_lost exApp_good h _ ⟨[], _, _, rfl, ?_⟩, C129_display exApp_good h _⟩
  obtain ⟨b, w', -, -, h1, -, -, -, -, -, -, -, -, -, -, -, h11, -⟩ := create_room exApp_good "tx" "rx" ⟨0, 0⟩ ⟨2, 1⟩ [(⟨0, 3⟩, ⟨2, 3⟩)] 150 .user
  rw [h] at h1
  obtain rfl := Except.ok.inj h1
  show min 0 99 ≠ w.patchSlider.index
  rw [h11]; norm_num

/-- No transmitter at all is refused. -/
example := C129_assert exApp (Scene.make [] [("rx", ⟨2, 1⟩)] []) (.inl (by decide)) 150 .user

/-- A file with a building. -/
example := C129_file town _ _ .NW .SE town_document.choose_spec.1 town_document.choose_spec.2

end DiffeRT2d.Props
