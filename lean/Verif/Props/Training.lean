import Verif.Spec.Training
import Verif.Props.FlowLoss

/-! # Property C136: the training loop of the notebook -/

namespace DiffeRT2d.Props
open Classical Spec

section
variable {Net Opt Sample Key : Type} (T : Trainer Net Opt Sample Key) (split : Key → ℕ → List Key) (key : Key)

/-- The key that is carried after `i` splits. -/
def carriedKey (i : ℕ) : Key := (fun k => (split k 2).getD 0 k)^[i] key

theorem split_carried (hs : ∀ k, (split k 2).length = 2) (i : ℕ) : split (carriedKey split key i) 2 = [carriedKey split key (i + 1), freshKey split key i] := by
  have h := hs (carriedKey split key i)
  match e : split (carriedKey split key i) 2, h with
  | [a, b], _ =>
    have h1 : carriedKey split key (i + 1) = a := by
      unfold carriedKey at e ⊢
      rw [Function.iterate_succ_apply', e]
      rfl
    have h2 : freshKey split key i = b := by
      unfold carriedKey at e
      unfold freshKey
      simp only [e]
      rfl
    rw [h1, h2]

theorem validate_eq (hs : ∀ k, (split k 2).length = 2) (L : Net → Sample → Key → F) (net : Net) : ∀ (val : List Sample) (_ : ∀ x ∈ val, ∀ k, T.loss net x k = .ok (L net x k))
    (total : F) (i : ℕ), validate T split net val total (carriedKey split key i) =
      .ok (((val.zipIdx i).map fun x => L net x.1 (freshKey split key x.2)).foldl (· + ·) total, carriedKey split key (i + val.length))
  | [], _, total, i => by simp [validate]
  | x :: val, h, total, i => by
    have ih := validate_eq hs L net val (fun y hy => h y (by simp [hy])) (total + L net x (freshKey split key i)) (i + 1)
    unfold validate
    rw [split_carried split key hs]
    simp only [h x (by simp), bind, Except.bind]
    rw [ih]
    simp only [List.zipIdx_cons, List.map_cons, List.foldl_cons, List.length_cons]
    rw [show i + 1 + val.length = i + (val.length + 1) by omega]

theorem reported_succ (steps p : ℤ) (s : ℕ) :
    reported steps p (s + 1) = reported steps p s ++ if p ∣ (s : ℤ) ∨ (s : ℤ) = steps - 1 then [s] else [] := by
  unfold reported
  rw [List.range_succ, List.filter_append]
  by_cases h : p ∣ (s : ℤ) ∨ (s : ℤ) = steps - 1 <;> simp [h]

theorem firstKey_succ (steps p : ℤ) (v s : ℕ) :
    firstKey steps p v (s + 1) = if p ∣ (s : ℤ) ∨ (s : ℤ) = steps - 1 then firstKey steps p v s + 1 + v else firstKey steps p v s + 1 := by
  unfold firstKey
  rw [reported_succ]
  split_ifs
  · rw [List.length_append, List.length_singleton]; ring
  · rw [List.append_nil]; ring

/-- The variables of the loop after `n` steps. -/
noncomputable def loopState (L : Net → Sample → Key → F) (net : Net) (samples val : List Sample) (steps p : ℤ) (n : ℕ) : TrainState Net Opt Key :=
  let keyOf := fun s => freshKey split key (firstKey steps p val.length s)
  let at_ := trainedFor T keyOf net samples
  ⟨(at_ n).1, (at_ n).2, carriedKey split key (firstKey steps p val.length n), reported steps p n,
    (reported steps p n).filterMap fun s => samples[s]?.map fun x => L (at_ s).1 x (keyOf s),
    (reported steps p n).map fun s => meanOf ((val.zipIdx (firstKey steps p val.length s + 1)).map fun x => L (at_ (s + 1)).1 x.1 (freshKey split key x.2))⟩

theorem trainBody_eq (hs : ∀ k, (split k 2).length = 2) (L : Net → Sample → Key → F) (net : Net) (samples val : List Sample) (hval : val ≠ []) (steps p : ℤ) (hp : p ≠ 0)
    (Inv : Net → Prop) (hL : ∀ m x k, Inv m → x ∈ samples ∨ x ∈ val → T.loss m x k = .ok (L m x k))
    (n : ℕ) (xys : Sample) (hx : samples[n]? = some xys) (hI : Inv (loopState T split key L net samples val steps p n).net)
    (hI' : Inv (loopState T split key L net samples val steps p (n + 1)).net) :
    trainBody T split val steps p n xys (loopState T split key L net samples val steps p n) = .ok (loopState T split key L net samples val steps p (n + 1)) := by
  have hmem : xys ∈ samples := List.mem_of_getElem? hx
  have hlen : val.length ≠ 0 := by simpa using hval
  unfold trainBody
  rw [show (loopState T split key L net samples val steps p n).key = carriedKey split key (firstKey steps p val.length n) from rfl, split_carried split key hs]
  have hnew : T.makeStep (loopState T split key L net samples val steps p n).net (loopState T split key L net samples val steps p n).opt xys
      (freshKey split key (firstKey steps p val.length n)) =
      .ok ((loopState T split key L net samples val steps p (n + 1)).net, (loopState T split key L net samples val steps p (n + 1)).opt,
        L (loopState T split key L net samples val steps p n).net xys (freshKey split key (firstKey steps p val.length n))) := by
    unfold Trainer.makeStep
    rw [hL _ _ _ hI (.inl hmem)]
    simp only [bind, Except.bind, pure, Except.pure, loopState, trainedFor, hx]
  simp only [hnew, bind, Except.bind, if_neg hp, Int.dvd_iff_emod_eq_zero.symm]
  by_cases hc : p ∣ (n : ℤ) ∨ (n : ℤ) = steps - 1
  · rw [if_pos hc, validate_eq T split key hs L _ val (fun x hx k => hL _ _ _ hI' (.inr hx))]
    simp only [if_neg hlen]
    simp only [loopState, reported_succ, firstKey_succ, if_pos hc, List.filterMap_append, List.map_append, List.filterMap_cons, List.filterMap_nil, hx, Option.map_some,
      List.map_cons, List.map_nil]
    congr 2
    simp only [meanOf, F.sum, List.length_map, List.length_zipIdx]
    rw [F.zero_eq]
  · rw [if_neg hc]
    simp only [loopState, reported_succ, firstKey_succ, if_neg hc, List.append_nil]

theorem trainLoop_eq (hs : ∀ k, (split k 2).length = 2) (L : Net → Sample → Key → F) (net : Net) (samples val : List Sample) (hval : val ≠ []) (steps p : ℤ) (hp : p ≠ 0)
    (Inv : Net → Prop) (hL : ∀ m x k, Inv m → x ∈ samples ∨ x ∈ val → T.loss m x k = .ok (L m x k))
    (hI : ∀ n, Inv (loopState T split key L net samples val steps p n).net) : ∀ (m n : ℕ),
    trainLoop T split val steps p (List.range' n m) (samples.drop n) (loopState T split key L net samples val steps p n) =
      .ok (loopState T split key L net samples val steps p (n + min m (samples.length - n)), samples.drop (n + min m (samples.length - n)))
  | 0, n => by simp [trainLoop]
  | m + 1, n => by
    rw [List.range'_succ]
    by_cases hn : n < samples.length
    · rw [List.drop_eq_getElem_cons hn]
      unfold trainLoop
      rw [trainBody_eq T split key hs L net samples val hval steps p hp Inv hL n _ (List.getElem?_eq_getElem hn) (hI _) (hI _)]
      simp only [bind, Except.bind]
      rw [trainLoop_eq hs L net samples val hval steps p hp Inv hL hI m (n + 1)]
      rw [show n + 1 + min m (samples.length - (n + 1)) = n + min (m + 1) (samples.length - n) by omega]
    · rw [List.drop_eq_nil_of_le (by omega), show min (m + 1) (samples.length - n) = 0 by omega]
      simp [trainLoop, List.drop_eq_nil_of_le (by omega : samples.length ≤ n)]

/-- **C136.** What `train` does. With `n` the number of steps (fewer if the samples run out): the network returned is the result of `n` updates, with the first `n` samples in order,
each with a fresh key; the iterator has lost these `n` samples and no other. Losses are reported for the multiples of `printEvery` and the last step: the training loss is that of the
network before the update of this step, on its sample and with its key; the validation loss is the average, for the network after this update, over the validation samples, each with a
fresh key. -/
theorem C136_train (hs : ∀ k, (split k 2).length = 2) (L : Net → Sample → Key → F) (net : Net) (samples val : List Sample) (hval : val ≠ []) (steps p : ℤ) (hp : p ≠ 0)
    (Inv : Net → Prop) (hL : ∀ m x k, Inv m → x ∈ samples ∨ x ∈ val → T.loss m x k = .ok (L m x k))
    (h0 : Inv net) (hU : ∀ m o x k, Inv m → x ∈ samples → Inv (T.update m o x k).1) :
    let n := min steps.toNat samples.length
    let keyOf := fun s => freshKey split key (firstKey steps p val.length s)
    let network := fun s => (trainedFor T keyOf net samples s).1
    ∃ losses, train T split net samples val steps p key =
        .ok ((network n, reported steps p n, losses,
          (reported steps p n).map fun s => meanOf ((val.zipIdx (firstKey steps p val.length s + 1)).map fun x => L (network (s + 1)) x.1 (freshKey split key x.2))), samples.drop n) ∧
      losses.map some = (reported steps p n).map fun s => samples[s]?.map fun x => L (network s) x (keyOf s) := by
  intro n keyOf network
  have hI : ∀ s, Inv (trainedFor T keyOf net samples s).1 := by
    intro s
    induction s with
    | zero => exact h0
    | succ s ih =>
      unfold trainedFor
      match e : samples[s]? with
      | some x => exact hU _ _ _ _ ih (List.mem_of_getElem? e)
      | none => exact ih
  have h := trainLoop_eq T split key hs L net samples val hval steps p hp Inv hL hI steps.toNat 0
  simp only [List.drop_zero, zero_add, Nat.sub_zero] at h
  refine ⟨(loopState T split key L net samples val steps p n).trainLosses, ?_, ?_⟩
  · unfold train
    rw [List.range_eq_range']
    have e0 : loopState T split key L net samples val steps p 0 = ⟨net, T.init net, key, [], [], []⟩ := by
      simp [loopState, trainedFor, reported, firstKey, carriedKey]
    rw [← e0, h]
    rfl
  · simp only [loopState]
    have hall : ∀ s ∈ reported steps p n, s < samples.length := by
      intro s hsn
      have := List.mem_range.mp (List.mem_filter.mp hsn).1
      omega
    change ((reported steps p n).filterMap _).map some = _
    revert hall
    generalize reported steps p n = l
    intro hall
    induction l with
    | nil => rfl
    | cons s l ih =>
      have := hall s (by simp)
      rw [List.filterMap_cons, List.map_cons, List.getElem?_eq_getElem this]
      simp only [Option.map_some, List.map_cons]
      rw [ih fun s hs => hall s (by simp [hs])]

/-- **C136.** Without validation samples, or with `printEvery = 0`, the first step fails. -/
theorem C136_zero_division (hs : ∀ k, (split k 2).length = 2) (net : Net) (x : Sample) (samples val : List Sample) (steps p : ℤ) (h0 : 0 < steps)
    (hL : ∀ k, ∃ l, T.loss net x k = .ok l) (h : p = 0 ∨ val = []) : train T split net (x :: samples) val steps p key = .error .zeroDivisionError := by
  have hsp := split_carried split key hs 0
  rw [show carriedKey split key 0 = key from rfl] at hsp
  obtain ⟨l, hl⟩ := hL (freshKey split key 0)
  obtain ⟨m, hm⟩ : ∃ m, steps.toNat = m + 1 := ⟨steps.toNat - 1, by omega⟩
  unfold train
  rw [hm, List.range_eq_range', List.range'_succ]
  unfold trainLoop trainBody
  simp only [hsp, Trainer.makeStep, hl, bind, Except.bind, pure, Except.pure]
  by_cases hp : p = 0
  · rw [if_pos hp]
  · obtain rfl : val = [] := h.resolve_left hp
    simp [hp, validate]

end

/-! ## The reports -/

theorem reported_mem (steps p : ℤ) (n s : ℕ) : s ∈ reported steps p n ↔ s < n ∧ (p ∣ (s : ℤ) ∨ (s : ℤ) = steps - 1) := by
  simp [reported]

/-- The number of multiples of `p` below `n`. -/
theorem multiples_length (p : ℕ) (hp : 0 < p) : ∀ n : ℕ, ((List.range n).filter fun s => decide (p ∣ s)).length = (n + p - 1) / p
  | 0 => by
    rw [Nat.div_eq_of_lt (by omega)]
    simp
  | n + 1 => by
    rw [List.range_succ, List.filter_append, List.length_append, multiples_length p hp n]
    rw [show n + 1 + p - 1 = (n + p - 1) + 1 by omega, Nat.succ_div]
    have : p ∣ n + p - 1 + 1 ↔ p ∣ n := by
      rw [show n + p - 1 + 1 = n + p by omega, Nat.dvd_add_self_right]
    by_cases h : p ∣ n <;> simp [h, this]

/-- **C136.** The number of reports of a complete training: one per multiple of `printEvery` below the last step, and one for the last step. -/
theorem C136_count (steps p : ℕ) (hn : 0 < steps) (hp : 0 < p) : (reported steps p steps).length = (steps - 1 + p - 1) / p + 1 := by
  obtain ⟨m, rfl⟩ : ∃ m, steps = m + 1 := ⟨steps - 1, by omega⟩
  rw [reported_succ, if_pos (.inr (by push_cast; ring)), List.length_append, List.length_singleton]
  have : reported ((m + 1 : ℕ) : ℤ) p m = (List.range m).filter fun s => decide (p ∣ s) := by
    unfold reported
    refine List.filter_congr fun s hs => ?_
    have := List.mem_range.mp hs
    rw [decide_eq_decide, Int.natCast_dvd_natCast]
    exact or_iff_left (by push_cast; omega)
  rw [this, multiples_length p hp, Nat.add_sub_cancel]

/-- **C136.** The steps reported are in increasing order, without repetition, and the last one is the last step. -/
theorem C136_order (steps p : ℕ) (hn : 0 < steps) : (reported steps p steps).Pairwise (· < ·) ∧ (reported steps p steps).getLast? = some (steps - 1) := by
  refine ⟨List.Pairwise.filter _ List.pairwise_lt_range, ?_⟩
  obtain ⟨m, rfl⟩ : ∃ m, steps = m + 1 := ⟨steps - 1, by omega⟩
  rw [reported_succ, if_pos (.inr (by push_cast; ring))]
  simp

/-- **C136.** The annotation of `train` says that each of the three arrays has `steps // print_every` elements: this is right only if `print_every` is 1. -/
theorem C136_annotation_refuted (steps p : ℕ) (hn : 0 < steps) (hp : 0 < p) : (reported steps p steps).length = steps / p ↔ p = 1 := by
  rw [C136_count steps p hn hp]
  constructor
  · intro h
    by_contra hne
    have : steps / p ≤ (steps - 1 + p - 1) / p := Nat.div_le_div_right (by omega)
    omega
  · rintro rfl
    simp
    omega

/-- The defaults: 1001 reports, not 1000. -/
example : (reported (100000 : ℕ) (100 : ℕ) 100000).length = 1001 := by
  rw [C136_count _ _ (by norm_num) (by norm_num)]

/-! ## The keys -/

theorem firstKey_lt (steps p : ℤ) (v : ℕ) {s s' : ℕ} (h : s < s') : firstKey steps p v s + 1 ≤ firstKey steps p v s' ∧
    (p ∣ (s : ℤ) ∨ (s : ℤ) = steps - 1 → firstKey steps p v s + 1 + v ≤ firstKey steps p v s') := by
  induction s' with
  | zero => omega
  | succ m ih =>
    have hm := firstKey_succ steps p v m
    rcases Nat.lt_succ_iff_lt_or_eq.mp h with h | rfl
    · obtain ⟨h1, h2⟩ := ih h
      have : firstKey steps p v m ≤ firstKey steps p v (m + 1) := by rw [hm]; split_ifs <;> omega
      exact ⟨by omega, fun q => by have := h2 q; omega⟩
    · refine ⟨by rw [hm]; split_ifs <;> omega, fun q => ?_⟩
      rw [hm, if_pos q]

/-- **C136.** No key is used twice. -/
theorem C136_keys (steps p : ℤ) (v n : ℕ) (a b : KeyUse) (ha : a.Happens steps p v n) (hb : b.Happens steps p v n)
    (h : a.number steps p v = b.number steps p v) : a = b := by
  cases a with
  | update s =>
    cases b with
    | update s' =>
      simp only [KeyUse.number] at h
      rcases lt_trichotomy s s' with q | rfl | q
      · have := (firstKey_lt steps p v q).1; omega
      · rfl
      · have := (firstKey_lt steps p v q).1; omega
    | validation s' j =>
      simp only [KeyUse.number, KeyUse.Happens, reported_mem] at h hb
      rcases lt_trichotomy s s' with q | rfl | q
      · have := (firstKey_lt steps p v q).1; omega
      · omega
      · have := (firstKey_lt steps p v q).2 hb.1.2; omega
  | validation s j =>
    cases b with
    | update s' =>
      simp only [KeyUse.number, KeyUse.Happens, reported_mem] at h ha
      rcases lt_trichotomy s s' with q | rfl | q
      · have := (firstKey_lt steps p v q).2 ha.1.2; omega
      · omega
      · have := (firstKey_lt steps p v q).1; omega
    | validation s' j' =>
      simp only [KeyUse.number, KeyUse.Happens, reported_mem] at h ha hb
      rcases lt_trichotomy s s' with q | rfl | q
      · have := (firstKey_lt steps p v q).2 ha.1.2; omega
      · obtain rfl : j = j' := by omega
        rfl
      · have := (firstKey_lt steps p v q).2 hb.1.2; omega

theorem carried_address (key : List ℕ) (i : ℕ) : carriedKey addressSplit key i = key ++ List.replicate i 0 := by
  induction i with
  | zero => simp [carriedKey]
  | succ i ih =>
    unfold carriedKey at ih ⊢
    rw [Function.iterate_succ_apply', ih]
    simp [addressSplit, List.range_succ, List.replicate_succ']

theorem fresh_address (key : List ℕ) (i : ℕ) : freshKey addressSplit key i = key ++ List.replicate i 0 ++ [1] := by
  have := carried_address key i
  unfold carriedKey at this
  unfold freshKey
  simp only [this]
  simp [addressSplit, List.range_succ]

/-- **C136.** Nor is a key derived from another one that is used, so that splitting them inside the loss gives no key twice either. -/
theorem C136_independent (key : List ℕ) (i j : ℕ) (h : freshKey addressSplit key i <+: freshKey addressSplit key j) : i = j := by
  rw [fresh_address, fresh_address, List.append_assoc, List.append_assoc, List.prefix_append_right_inj] at h
  obtain ⟨t, ht⟩ := h
  by_contra hne
  rcases Nat.lt_or_gt_of_ne hne with q | q
  · have h1 := congrArg (fun l => l[i]?) ht
    simp [List.getElem?_append, q] at h1
  · have h1 := congrArg (fun l => l[j]?) ht
    simp [List.getElem?_append, q] at h1

/-! ## The losses of the notebook -/

/-- A sample that the generator yields by default, with a transmitter and a receiver at different places. -/
def IsSample (xys : List (V2 F)) : Prop :=
  ∃ tx rx walls, tx ≠ rx ∧ SampleOf (1 / 5) (2 / 5) 4 (-(Real.pi / 10)) (Real.pi / 10) tx rx walls ∧ xys = sampleRows tx rx walls

theorem sample_loss {Key : Type} (E : Env) (hE : E.enableApprox = false) (J : Jax Key) (hJ : SupportContract J) (net : FlowModel) (hnet : FiniteNet net)
    (order : ℕ) (xys : List (V2 F)) (hx : IsSample xys) (key : Key) : ∃ (l : ℝ) (cs : List (List ℤ)), 0 ≤ l ∧ flowLoss E J net xys 10 order key = .ok (F.fin l, cs) := by
  obtain ⟨t, r, walls, htr, hsample, rfl⟩ := hx
  obtain ⟨h4, -, ratio, h1, -, hw⟩ := C131_rigid _ _ _ _ _ (by norm_num) _ _ _ hsample
  have hne : walls ≠ [] := by rintro rfl; simp at h4
  have hnd : ∀ w ∈ walls, w.1 ≠ w.2 := by
    intro w hwm e
    have h0 : eucl w.1 w.2 = 0 := by rw [e]; simp [eucl]
    rcases hw w hwm with ⟨h, -⟩ | ⟨h, -⟩ <;> rw [h0] at h <;> linarith
  obtain ⟨flow, hF, p1, p2⟩ := C134_flows net hnet walls.length order (List.length_pos_iff.mpr hne) _ (sampleRows_len t r walls)
  rw [← sampleRows_map] at hF
  obtain ⟨cs, -, -, hl, hpos⟩ := C135_batch E hE J hJ net t r htr walls hne hnd order (.inl (by omega)) flow hF ⟨p1, p2⟩ 10 key
  exact ⟨_, _, hpos, hl⟩

theorem meanOf_nonneg : ∀ (l : List F), l ≠ [] → (∀ x ∈ l, ∃ r : ℝ, 0 ≤ r ∧ x = F.fin r) → ∃ r : ℝ, 0 ≤ r ∧ meanOf l = F.fin r := by
  intro l hne h
  choose! f h0 hf using h
  have e : l = (l.map f).map F.fin := by
    rw [List.map_map]
    conv_lhs => rw [← List.map_id l]
    exact List.map_congr_left fun x hx => hf x hx
  have hl : (l.length : ℝ) ≠ 0 := by simpa using hne
  have hs : F.sum l = F.fin (l.map f).sum := by
    conv_lhs => rw [e]
    exact F.sum_fin _
  refine ⟨(l.map f).sum / l.length, div_nonneg (List.sum_nonneg fun x hx => ?_) (Nat.cast_nonneg _), ?_⟩
  · obtain ⟨y, hy, rfl⟩ := List.mem_map.mp hx
    exact h0 y hy
  · rw [meanOf, hs, F.fin_div _ hl]

/-- **C136.** Training the notebook's model on its samples, with any optimizer that keeps the networks free of overflow, succeeds, and all the losses reported are finite and not
negative. -/
theorem C136_losses {Opt Key : Type} (E : Env) (hE : E.enableApprox = false) (J : Jax Key) (hJ : SupportContract J) (order : ℕ) (init : FlowModel → Opt)
    (update : FlowModel → Opt → List (V2 F) → Key → FlowModel × Opt) (hU : ∀ m o x k, FiniteNet m → FiniteNet (update m o x k).1)
    (net : FlowModel) (hnet : FiniteNet net) (samples val : List (List (V2 F))) (hval : val ≠ []) (hx : ∀ x, x ∈ samples ∨ x ∈ val → IsSample x)
    (steps p : ℤ) (hp : p ≠ 0) (key : Key) :
    ∃ net' trainLosses valLosses, train (notebookTrainer E J order init update) J.split net samples val steps p key =
        .ok ((net', reported steps p (min steps.toNat samples.length), trainLosses, valLosses), samples.drop (min steps.toNat samples.length)) ∧
      trainLosses.length = (reported steps p (min steps.toNat samples.length)).length ∧ valLosses.length = trainLosses.length ∧
      ∀ x, x ∈ trainLosses ∨ x ∈ valLosses → ∃ r : ℝ, 0 ≤ r ∧ x = F.fin r := by
  let L : FlowModel → List (V2 F) → Key → F := fun m x k => match flowLoss E J m x 10 order k with | .ok r => r.1 | .error _ => F.nan
  have hLf : ∀ m x k, FiniteNet m → x ∈ samples ∨ x ∈ val → ∃ r : ℝ, 0 ≤ r ∧ L m x k = F.fin r := by
    intro m x k hm hmem
    obtain ⟨l, cs, h0, hl⟩ := sample_loss E hE J hJ m hm order x (hx x hmem) k
    exact ⟨l, h0, by simp only [L, hl]⟩
  have hL : ∀ m x k, FiniteNet m → x ∈ samples ∨ x ∈ val → (notebookTrainer E J order init update).loss m x k = .ok (L m x k) := by
    intro m x k hm hmem
    obtain ⟨l, cs, h0, hl⟩ := sample_loss E hE J hJ m hm order x (hx x hmem) k
    simp only [notebookTrainer, L, hl, bind, Except.bind, pure, Except.pure]
  have hI : ∀ (keyOf : ℕ → Key) s, FiniteNet (trainedFor (notebookTrainer E J order init update) keyOf net samples s).1 := by
    intro keyOf s
    induction s with
    | zero => exact hnet
    | succ s ih =>
      unfold trainedFor
      match e : samples[s]? with
      | some x => exact hU _ _ _ _ ih
      | none => exact ih
  obtain ⟨losses, h1, h2⟩ := C136_train (notebookTrainer E J order init update) J.split key (fun k => hJ.split k 2) L net samples val hval steps p hp FiniteNet hL hnet
    (fun m o x k hm _ => hU m o x k hm)
  refine ⟨_, losses, _, h1, ?_, ?_, ?_⟩
  · simpa using congrArg List.length h2
  · have := congrArg List.length h2
    simp only [List.length_map] at this ⊢
    exact this.symm
  · rintro x (hx' | hx')
    · have : some x ∈ losses.map some := List.mem_map.mpr ⟨x, hx', rfl⟩
      rw [h2] at this
      obtain ⟨s, -, hs⟩ := List.mem_map.mp this
      match e : samples[s]?, hs with
      | some y, hs =>
        simp only [Option.map_some, Option.some.injEq] at hs
        rw [← hs]
        exact hLf _ _ _ (hI _ _) (.inl (List.mem_of_getElem? e))
    · obtain ⟨s, -, rfl⟩ := List.mem_map.mp hx'
      refine meanOf_nonneg _ (by simpa using hval) fun x hxm => ?_
      obtain ⟨y, hy, rfl⟩ := List.mem_map.mp hxm
      exact hLf _ _ _ (hI _ _) (.inr (List.fst_mem_of_mem_zipIdx hy))

end DiffeRT2d.Props
