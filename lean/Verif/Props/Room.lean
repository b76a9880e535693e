import Verif.Lemmas.RoomPath
import Verif.Props.Rays
import Verif.Props.Fields

/-! # C112: how many paths there are in a rectangular room -/

namespace DiffeRT2d.Props
open Spec Opaque

theorem rayPath_chain {walls : List (Pt × Pt)} {patch : ℝ} {t r : Pt} {c : List ℤ} {pts : List Pt} (h : RayPath walls patch t r c pts) (hc : IsCandidate walls.length c) :
    ∃ qs, pts = t :: qs ++ [r] ∧ ReflChain (wallsAt walls c) (t :: qs ++ [r]) ∧ List.Forall₂ (fun w q => OnSegment w.1 w.2 q) (wallsAt walls c) qs := by
  have hl := h.count
  have hwl := wallsAt_length hc
  obtain ⟨qs, rfl⟩ : ∃ qs, pts = t :: qs ++ [r] := by
    match pts, h.start, h.finish, hl with
    | a :: l, h1, h2, hl =>
      simp at h1; subst h1
      have hne : l ≠ [] := by rintro rfl; simp at hl
      refine ⟨l.dropLast, ?_⟩
      rw [List.getLast?_cons_of_ne_nil hne, List.getLast?_eq_some_getLast hne] at h2
      rw [← Option.some.inj h2, List.cons_append, List.dropLast_append_getLast]
  have hq : qs.length = c.length := by simp at hl; omega
  refine ⟨qs, rfl, reflChain_of _ _ fun i w a b d hw ha hb hd => ?_, ?_⟩
  · obtain ⟨j, hj, hjw⟩ := (wallsAt_get walls c hc.1 i w).mp hw
    exact (h.reflected i j w a b d hj hjw ha hb hd).1
  · rw [List.forall₂_iff_get]
    refine ⟨by omega, fun i h1 h2 => ?_⟩
    obtain ⟨j, hj, hjw⟩ := (wallsAt_get walls c hc.1 i _).mp (List.getElem?_eq_getElem h1)
    refine (h.reflected i j _ _ _ _ hj hjw (List.getElem?_eq_getElem (by simp; omega)) ?_ (List.getElem?_eq_getElem (by simp; omega))).2
    rw [List.cons_append, List.getElem?_cons_succ, List.getElem?_append_left h2]
    exact List.getElem?_eq_getElem h2

theorem roomWalls_ne {x0 x1 y0 y1 : ℝ} (hx : x0 < x1) (hy : y0 < y1) : ∀ w ∈ roomWalls x0 x1 y0 y1, w.1 ≠ w.2 := by
  intro w hw
  simp only [roomWalls, List.mem_cons, List.not_mem_nil, or_false] at hw
  rcases hw with rfl | rfl | rfl | rfl <;> simp [hx.ne, hx.ne', hy.ne, hy.ne']

section
variable {x0 x1 y0 y1 patch : ℝ} {t r : Pt} {c c' : List ℤ} {pts pts' : List Pt}

/-- The image that a path in a room aims at. -/
theorem room_image (hx : x0 < x1) (hy : y0 < y1) (hr : WithinRoom x0 x1 y0 y1 r) (h : RayPath (roomWalls x0 x1 y0 y1) patch t r c pts) (hc : IsCandidate 4 c) :
    ∃ m : ℤ × ℤ, |m.1| + |m.2| = c.length ∧ eucl t (roomImage x0 x1 y0 y1 r m) = polyLength pts ∧
      ∀ q, pts[1]? = some q → ∃ k, 0 < k ∧ roomImage x0 x1 y0 y1 r m - t = V2.smul k (q - t) := by
  have hne := roomWalls_ne hx hy
  obtain ⟨qs, rfl, h1, h2⟩ := rayPath_chain h hc
  have hwn : ∀ w ∈ wallsAt (roomWalls x0 x1 y0 y1) c, w ∈ roomWalls x0 x1 y0 y1 := fun w hw => by
    obtain ⟨i, -, hi⟩ := List.mem_filterMap.mp hw
    exact List.mem_of_getElem? hi
  obtain ⟨m, m', e, hm⟩ := room_unfold hx hy hr _ hwn t qs h1 h2
  obtain ⟨⟨k, hk, ek⟩, el⟩ := unfold_dir _ (fun w hw => hne w (hwn w hw)) t r qs h2.length_eq.symm h1
  rw [e] at ek el
  rw [wallsAt_length (by exact hc)] at hm
  refine ⟨(m, m'), hm, el, fun q hq => ⟨k, hk, ?_⟩⟩
  have : q = qs.headD r := by cases qs <;> simp at hq <;> simp [hq]
  rw [this]; exact ek

/-- Two paths that aim at the same image are the same. -/
theorem room_image_inj (hx : x0 < x1) (hy : y0 < y1) (h : RayPath (roomWalls x0 x1 y0 y1) patch t r c pts) (hc : IsCandidate 4 c)
    (h' : RayPath (roomWalls x0 x1 y0 y1) patch t r c' pts') (hc' : IsCandidate 4 c') (hp : -(1 / 202) ≤ patch) {u : Pt}
    (hd : ∀ q, pts[1]? = some q → ∃ k, 0 < k ∧ u - t = V2.smul k (q - t)) (hd' : ∀ q, pts'[1]? = some q → ∃ k, 0 < k ∧ u - t = V2.smul k (q - t))
    (hut : u ≠ t) (hl : c.length = c'.length) : c = c' ∧ pts = pts' := by
  have n := h.count
  have n' := h'.count
  refine C111_same (roomWalls_ne hx hy) h h' hc hc' hp ?_ (.inl hl)
  have e1 : pts[1]? = some pts[1] := List.getElem?_eq_getElem (by omega)
  have e2 : pts'[1]? = some pts'[1] := List.getElem?_eq_getElem (by omega)
  obtain ⟨k, hk, ek⟩ := hd _ e1
  obtain ⟨k', hk', ek'⟩ := hd' _ e2
  refine ⟨t, _, _, by rw [← List.head?_eq_getElem?]; exact h.start, e1, by rw [← List.head?_eq_getElem?]; exact h'.start, e2, ?_, k / k', by positivity, ?_, ?_⟩
  · intro e
    apply hut
    rw [e] at ek
    have a := congrArg V2.x ek
    have b := congrArg V2.y ek
    simp only [V2.sub_x, V2.sub_y, V2.smul_x, V2.smul_y, sub_self, mul_zero] at a b
    ext <;> linarith
  · have a := congrArg V2.x ek
    have b := congrArg V2.x ek'
    simp only [V2.sub_x, V2.smul_x] at a b
    field_simp; linarith
  · have a := congrArg V2.y ek
    have b := congrArg V2.y ek'
    simp only [V2.sub_y, V2.smul_y] at a b
    field_simp; linarith

/-- A path that aims at the point it starts from has no reflection. -/
theorem room_image_ne (h : RayPath (roomWalls x0 x1 y0 y1) patch t r c pts) (hc : IsCandidate 4 c) {u : Pt} (hc0 : c ≠ [])
    (hd : ∀ q, pts[1]? = some q → ∃ k, 0 < k ∧ u - t = V2.smul k (q - t)) : u ≠ t := by
  have n := h.count
  have hpos := List.length_pos_iff.mpr hc0
  obtain ⟨j, w, hj, hw⟩ := cand_wall (walls := roomWalls x0 x1 y0 y1) hc hpos
  have e0 : pts[0]? = some t := by rw [← List.head?_eq_getElem?]; exact h.start
  have e1 : pts[1]? = some pts[1] := List.getElem?_eq_getElem (by omega)
  obtain ⟨hR, -⟩ := h.reflected 0 j w t _ _ hj hw e0 e1 (List.getElem?_eq_getElem (by omega))
  obtain ⟨k, hk, ek⟩ := hd _ e1
  rintro rfl
  have a := congrArg V2.x ek
  have b := congrArg V2.y ek
  simp only [V2.sub_x, V2.sub_y, V2.smul_x, V2.smul_y, sub_self] at a b
  have hq : pts[1] = u := by
    ext
    · rcases mul_eq_zero.mp a.symm with h | h <;> linarith
    · rcases mul_eq_zero.mp b.symm with h | h <;> linarith
  have := hR.same
  rw [hq] at hR
  rw [line_side hR.on] at this
  simp at this

end

/-- **C112.** In a rectangular room, the physical ray paths to a receiver in it are the straight lines to its mirror images: each path of `n` reflections goes, at first, straight towards
an image `(m, m')` with `|m| + |m'| = n`, is as long as the distance to it, and no other path goes to the same image. -/
theorem C112_images (x0 x1 y0 y1 : ℝ) (hx : x0 < x1) (hy : y0 < y1) (t r : Pt) (hr : WithinRoom x0 x1 y0 y1 r) (patch : ℝ) (hp : -(1 / 202) ≤ patch) :
    ∃ image : List ℤ × List Pt → ℤ × ℤ,
      (∀ c pts, IsCandidate 4 c → RayPath (roomWalls x0 x1 y0 y1) patch t r c pts →
        |(image (c, pts)).1| + |(image (c, pts)).2| = c.length ∧ eucl t (roomImage x0 x1 y0 y1 r (image (c, pts))) = polyLength pts ∧
        ∀ q, pts[1]? = some q → q ≠ t → SameDirection t q (roomImage x0 x1 y0 y1 r (image (c, pts)))) ∧
      ∀ c c' pts pts', IsCandidate 4 c → IsCandidate 4 c' → RayPath (roomWalls x0 x1 y0 y1) patch t r c pts → RayPath (roomWalls x0 x1 y0 y1) patch t r c' pts' →
        image (c, pts) = image (c', pts') → c = c' ∧ pts = pts' := by
  classical
  have key : ∀ x : List ℤ × List Pt, ∃ m : ℤ × ℤ, IsCandidate 4 x.1 → RayPath (roomWalls x0 x1 y0 y1) patch t r x.1 x.2 →
      |m.1| + |m.2| = x.1.length ∧ eucl t (roomImage x0 x1 y0 y1 r m) = polyLength x.2 ∧
      ∀ q, x.2[1]? = some q → ∃ k, 0 < k ∧ roomImage x0 x1 y0 y1 r m - t = V2.smul k (q - t) := by
    intro x
    by_cases h : IsCandidate 4 x.1 ∧ RayPath (roomWalls x0 x1 y0 y1) patch t r x.1 x.2
    · obtain ⟨m, hm⟩ := room_image hx hy hr h.2 h.1
      exact ⟨m, fun _ _ => hm⟩
    · exact ⟨0, fun a b => absurd ⟨a, b⟩ h⟩
  choose image himg using key
  refine ⟨image, fun c pts hc h => ?_, fun c c' pts pts' hc hc' h h' he => ?_⟩
  · obtain ⟨a, b, d⟩ := himg (c, pts) hc h
    refine ⟨a, b, fun q hq hne => ⟨hne, ?_⟩⟩
    obtain ⟨k, hk, ek⟩ := d q hq
    exact ⟨k, hk, by simpa using congrArg V2.x ek, by simpa using congrArg V2.y ek⟩
  · obtain ⟨a, b, d⟩ := himg (c, pts) hc h
    obtain ⟨a', b', d'⟩ := himg (c', pts') hc' h'
    rw [← he] at a' d'
    have hl : c.length = c'.length := by
      have := a.symm.trans a'
      simpa using this
    by_cases h0 : c = []
    · have h0' : c' = [] := by rw [h0] at hl; exact List.length_eq_zero_iff.mp (by simpa using hl.symm)
      subst h0 h0'
      obtain ⟨qs, rfl, -⟩ := rayPath_chain h hc
      obtain ⟨qs', rfl, -⟩ := rayPath_chain h' hc'
      have n := h.count
      have n' := h'.count
      simp at n n'
      simp [n, n']
    · exact room_image_inj hx hy h hc h' hc' hp d d' (room_image_ne h hc h0 d) hl

/-- **C112.** In a rectangular room, there are at most `4 * n` physical ray paths of `n ≥ 1` reflections between a transmitter and a receiver in the room. -/
theorem C112_count (x0 x1 y0 y1 : ℝ) (hx : x0 < x1) (hy : y0 < y1) (t r : Pt) (hr : WithinRoom x0 x1 y0 y1 r) (patch : ℝ) (hp : -(1 / 202) ≤ patch) (n : ℕ) (hn : 0 < n)
    (S : Finset (List ℤ × List Pt)) (hS : ∀ s ∈ S, IsCandidate 4 s.1 ∧ s.1.length = n ∧ RayPath (roomWalls x0 x1 y0 y1) patch t r s.1 s.2) : S.card ≤ 4 * n := by
  obtain ⟨image, h1, h2⟩ := C112_images x0 x1 y0 y1 hx hy t r hr patch hp
  refine (Finset.card_le_card_of_injOn image (fun s hs => ?_) (fun s hs s' hs' e => ?_)).trans (diamond_card n)
  · obtain ⟨a, b, c⟩ := hS s hs
    exact mem_diamond hn (by rw [(h1 s.1 s.2 a c).1, b])
  · obtain ⟨a, b, c⟩ := hS s hs
    obtain ⟨a', b', c'⟩ := hS s' hs'
    obtain ⟨e1, e2⟩ := h2 _ _ _ _ a a' c c' e
    exact Prod.ext e1 e2

/-- The first point of a traced path is not the transmitter, unless this is on the line of the wall. -/
theorem traced_moves {walls : List (Pt × Pt)} (hnd : ∀ w ∈ walls, w.1 ≠ w.2) {t r : Pt} {c : List ℤ} (hc : IsCandidate walls.length c) {pts : List Pt}
    (htr : traceImage t (wallsAt walls c) r = .ok (finitePath pts 0)) (hmove : ∀ w ∈ walls, OnLine w.1 w.2 t → t ≠ r) (hce : c ≠ []) (heq : t = r) : Moves pts := by
  obtain ⟨i, c', rfl⟩ := List.exists_cons_of_ne_nil hce
  have hi := hc.1 i (by simp)
  obtain ⟨w, hw⟩ : ∃ w, walls[i.toNat]? = some w := ⟨_, List.getElem?_eq_getElem (by omega)⟩
  have hwa : wallsAt walls (i :: c') = w :: wallsAt walls c' := by simp [wallsAt, hw]
  have hwm : w ∈ walls := List.mem_of_getElem? hw
  obtain ⟨inner, loss, hil, e3⟩ := C33_finite t r (wallsAt walls (i :: c'))
  rw [htr] at e3
  obtain ⟨e4, e5⟩ := finitePath_inj (Except.ok.inj e3)
  have hF := C30_on_lines t r (wallsAt walls (i :: c')) inner loss (by rw [htr, e3]) (fun v hv => by
    obtain ⟨i, -, hi⟩ := List.mem_filterMap.mp hv
    exact hnd v (List.mem_of_getElem? hi)) (by linarith)
  rw [e4]
  rw [hwa] at hF
  cases hF with
  | @cons _ b _ l hb _ =>
    exact ⟨t, by simp, b, by simp, fun h => hmove w hwm (h ▸ hb) heq⟩

theorem inside_off_lines {x0 x1 y0 y1 : ℝ} {p : Pt} (h : InsideRoom x0 x1 y0 y1 p) : ∀ w ∈ roomWalls x0 x1 y0 y1, ¬ OnLine w.1 w.2 p := by
  intro w hw
  obtain ⟨a, b, c, d⟩ := h
  simp only [roomWalls, List.mem_cons, List.not_mem_nil, or_false] at hw
  rintro ⟨s, rfl⟩
  rcases hw with rfl | rfl | rfl | rfl <;> simp [pointAt] at a b c d

/-- **C112.** In a scene that is a rectangular room, in hard mode, each path that `all_valid_paths` yields to a receiver strictly inside the room leaves towards one of its mirror images, seen through as
many reflections as the path has, and is as long as the distance to it; two different paths of a pair do not go to the same image. -/
theorem C112_yielded {Key : Type} (G : GraphLib) (hG : GraphContract G) (tx rx : PyDict Pt) (ht : Distinct tx) (hr : Distinct rx)
    (x0 x1 y0 y1 : ℝ) (hx : x0 < x1) (hy : y0 < y1) (lo hi : ℤ) (hlo : 0 ≤ lo) (split : Key → ℕ → List Key) (key : Option Key)
    (E : Env) (approx : Option Bool) (hh : Hard E approx) (kw : ActKw) (tol patch : ℝ) (h0 : 0 < tol) (h1 : tol ≤ 1) (hp : -(1 / 202) ≤ patch) :
    ∃ (out : List (String × String × Path × List ℤ)) (image : Pt → Pt → List ℤ × List Pt → ℤ × ℤ),
      (wallScene tx rx (roomWalls x0 x1 y0 y1)).allValidPaths G split (imageMethod Key) { minOrder := lo, maxOrder := hi }
        ⟨E, F.fin tol, F.fin patch, approx, kw⟩ key = .ok out ∧
      ∀ tn rn t r path c, (tn, t) ∈ tx → (rn, r) ∈ rx → InsideRoom x0 x1 y0 y1 r → (tn, rn, path, c) ∈ out → ∃ pts, path = finitePath pts 0 ∧
        |(image t r (c, pts)).1| + |(image t r (c, pts)).2| = c.length ∧ eucl t (roomImage x0 x1 y0 y1 r (image t r (c, pts))) = polyLength pts ∧
        (∀ q, pts[1]? = some q → q ≠ t → SameDirection t q (roomImage x0 x1 y0 y1 r (image t r (c, pts)))) ∧
        ∀ pts' c', (tn, rn, finitePath pts' 0, c') ∈ out → image t r (c, pts) = image t r (c', pts') → c = c' ∧ pts = pts' := by
  have hnd := roomWalls_ne hx hy
  obtain ⟨out, e, s1, s2, -⟩ := valid_paths_traced G hG tx rx ht hr _ hnd lo hi hlo split key E approx hh kw tol patch h0 h1 (by linarith)
  have hex : ∀ t r : Pt, ∃ image : List ℤ × List Pt → ℤ × ℤ, InsideRoom x0 x1 y0 y1 r → 
      (∀ c pts, IsCandidate 4 c → RayPath (roomWalls x0 x1 y0 y1) patch t r c pts →
        |(image (c, pts)).1| + |(image (c, pts)).2| = c.length ∧ eucl t (roomImage x0 x1 y0 y1 r (image (c, pts))) = polyLength pts ∧
        ∀ q, pts[1]? = some q → q ≠ t → SameDirection t q (roomImage x0 x1 y0 y1 r (image (c, pts)))) ∧
      ∀ c c' pts pts', IsCandidate 4 c → IsCandidate 4 c' → RayPath (roomWalls x0 x1 y0 y1) patch t r c pts → RayPath (roomWalls x0 x1 y0 y1) patch t r c' pts' →
        image (c, pts) = image (c', pts') → c = c' ∧ pts = pts' := by
    intro t r
    by_cases hin : InsideRoom x0 x1 y0 y1 r
    · obtain ⟨image, h⟩ := C112_images x0 x1 y0 y1 hx hy t r ⟨hin.1.le, hin.2.1.le, hin.2.2.1.le, hin.2.2.2.le⟩ patch hp
      exact ⟨image, fun _ => h⟩
    · exact ⟨fun _ => 0, fun h => absurd h hin⟩
  choose image himg using hex
  refine ⟨out, image, e, fun tn rn t r path c htm hrm hin hmem => ?_⟩
  have inj : ∀ (d : PyDict Pt), Distinct d → ∀ (n : String) (a b : Pt), (n, a) ∈ d → (n, b) ∈ d → a = b := by
    intro d hd n a b ha hb
    exact congrArg Prod.snd (List.inj_on_of_nodup_map hd ha hb rfl)
  have hray : ∀ path c, (tn, rn, path, c) ∈ out → ∃ pts, path = finitePath pts 0 ∧ IsCandidate 4 c ∧ RayPath (roomWalls x0 x1 y0 y1) patch t r c pts := by
    intro path c hm
    obtain ⟨t', r', pts, a1, a2, a3, -, -, a6, a7, a8⟩ := s2 _ _ _ _ hm
    obtain rfl := inj tx ht _ _ _ a1 htm
    obtain rfl := inj rx hr _ _ _ a2 hrm
    refine ⟨pts, a6, a3, a8 (traced_moves hnd a3 (by rw [a7, a6]) fun w hw hon heq => ?_)⟩
    rw [heq] at hon
    exact inside_off_lines hin w hw hon
  obtain ⟨i1, i2⟩ := himg t r hin
  obtain ⟨pts, rfl, b1, b2⟩ := hray path c hmem
  obtain ⟨c1, c2, c3⟩ := i1 c pts b1 b2
  refine ⟨pts, rfl, c1, c2, c3, fun pts' c' hm' he => ?_⟩
  obtain ⟨pts'', e', b1', b2'⟩ := hray _ c' hm'
  obtain ⟨rfl, -⟩ := finitePath_inj e'
  exact i2 _ _ _ _ b1 b1' b2 b2' he

/-- **C112.** In a scene that is a rectangular room, in hard mode, `all_valid_paths` yields at most `4 * n` paths of `n ≥ 1` reflections between a transmitter and a receiver strictly
inside the room. -/
theorem C112_all_valid_paths {Key : Type} (G : GraphLib) (hG : GraphContract G) (tx rx : PyDict Pt) (ht : Distinct tx) (hr : Distinct rx)
    (x0 x1 y0 y1 : ℝ) (hx : x0 < x1) (hy : y0 < y1) (lo hi : ℤ) (hlo : 0 ≤ lo) (split : Key → ℕ → List Key) (key : Option Key)
    (E : Env) (approx : Option Bool) (hh : Hard E approx) (kw : ActKw) (tol patch : ℝ) (h0 : 0 < tol) (h1 : tol ≤ 1) (hp : -(1 / 202) ≤ patch) :
    ∃ out, (wallScene tx rx (roomWalls x0 x1 y0 y1)).allValidPaths G split (imageMethod Key) { minOrder := lo, maxOrder := hi }
        ⟨E, F.fin tol, F.fin patch, approx, kw⟩ key = .ok out ∧
      ∀ tn rn r (n : ℕ), (rn, r) ∈ rx → InsideRoom x0 x1 y0 y1 r → 0 < n →
        (out.filter fun x => x.1 = tn ∧ x.2.1 = rn ∧ x.2.2.2.length = n).length ≤ 4 * n := by
  have hnd := roomWalls_ne hx hy
  obtain ⟨out, e, s1, s2, -⟩ := valid_paths_traced G hG tx rx ht hr _ hnd lo hi hlo split key E approx hh kw tol patch h0 h1 (by linarith)
  refine ⟨out, e, fun tn rn r n hrm hin hn => ?_⟩
  have inj : ∀ (d : PyDict Pt), Distinct d → ∀ (n : String) (a b : Pt), (n, a) ∈ d → (n, b) ∈ d → a = b := by
    intro d hd n a b ha hb
    exact congrArg Prod.snd (List.inj_on_of_nodup_map hd ha hb rfl)
  set L := out.filter fun x => x.1 = tn ∧ x.2.1 = rn ∧ x.2.2.2.length = n with hL
  by_cases hLe : L = []
  · rw [hLe]; simp
  obtain ⟨y, hyL⟩ := List.exists_mem_of_ne_nil _ hLe
  have hyL' := hyL
  simp only [hL, List.mem_filter, decide_eq_true_eq] at hyL'
  obtain ⟨t, r', -, ht1, hr1, -⟩ := s2 y.1 y.2.1 y.2.2.1 y.2.2.2 hyL'.1
  rw [hyL'.2.1] at ht1
  have hnodup : (L.map fun x => x.2.2.2).Nodup := by
    have hs := s1.sublist (List.Sublist.map _ (List.filter_sublist (l := out) (p := fun x => decide (x.1 = tn ∧ x.2.1 = rn ∧ x.2.2.2.length = n))))
    rw [← hL] at hs
    refine List.Nodup.map_on (fun a ha b hb he => ?_) (List.Nodup.of_map _ hs)
    refine List.inj_on_of_nodup_map hs ha hb ?_
    simp only [hL, List.mem_filter, decide_eq_true_eq] at ha hb
    simp only [Prod.mk.injEq]
    exact ⟨ha.2.1.trans hb.2.1.symm, ha.2.2.1.trans hb.2.2.1.symm, he⟩
  have hray : ∀ c ∈ L.map (fun x => x.2.2.2), ∃ pts, IsCandidate 4 c ∧ c.length = n ∧ RayPath (roomWalls x0 x1 y0 y1) patch t r c pts := by
    intro c hc
    obtain ⟨x, hxL, rfl⟩ := List.mem_map.mp hc
    simp only [hL, List.mem_filter, decide_eq_true_eq] at hxL
    obtain ⟨t', r', pts, a1, a2, a3, -, -, a6, a7, a8⟩ := s2 x.1 x.2.1 x.2.2.1 x.2.2.2 hxL.1
    rw [hxL.2.1] at a1
    rw [hxL.2.2.1] at a2
    obtain rfl := inj tx ht _ _ _ a1 ht1
    obtain rfl := inj rx hr _ _ _ a2 hrm
    refine ⟨pts, a3, hxL.2.2.2, a8 (traced_moves hnd a3 (by rw [a7, a6]) fun w hw hon heq => ?_)⟩
    rw [heq] at hon
    exact inside_off_lines hin w hw hon
  choose! pt hpt using hray
  classical
  have := C112_count x0 x1 y0 y1 hx hy t r ⟨hin.1.le, hin.2.1.le, hin.2.2.1.le, hin.2.2.2.le⟩ patch hp n hn ((L.map fun x => (x.2.2.2, pt x.2.2.2)).toFinset) (by
    intro s hs
    obtain ⟨x, hx, rfl⟩ := List.mem_map.mp (List.mem_toFinset.mp hs)
    exact hpt _ (List.mem_map.mpr ⟨x, hx, rfl⟩))
  rw [List.toFinset_card_of_nodup, List.length_map] at this
  · exact this
  · have h2 : (L.map fun x => (x.2.2.2, pt x.2.2.2)) = (L.map fun x => x.2.2.2).map fun c => (c, pt c) := by rw [List.map_map]; rfl
    rw [h2]
    exact hnodup.map_on fun a _ b _ e => congrArg Prod.fst e

theorem not_blocks {x0 x1 y0 y1 patch : ℝ} {k : ℕ} {w : Pt × Pt} {p q : Pt} (hk : (roomWalls x0 x1 y0 y1)[k]? = some w) (hx : x0 < x1) (hy : y0 < y1)
    (hp : WithinRoom x0 x1 y0 y1 p) (hq : WithinRoom x0 x1 y0 y1 q) (fp : Far x0 x1 y0 y1 k p) (fq : Far x0 x1 y0 y1 k q) : ¬ Blocks w patch p q := by
  obtain ⟨p1, p2, p3, p4⟩ := hp
  obtain ⟨q1, q2, q3, q4⟩ := hq
  obtain ⟨fp0, fp1, fp2, fp3⟩ := fp
  obtain ⟨fq0, fq1, fq2, fq3⟩ := fq
  rintro ⟨-, s, u, e, -, u0, u1⟩
  have ex := congrArg V2.x e
  have ey := congrArg V2.y e
  -- a coordinate that stays more than 1/200 of the size away from the wall does not reach it
  have one : ∀ (a b d : ℝ), 0 < d → d / 200 < a → a ≤ d → d / 200 < b → b ≤ d → a + u * (b - a) ≠ 0 := by
    intro a b d hd ha had hb hbd h
    rcases le_total a b with hab | hab
    · have : -(5 / 1000) * (b - a) ≤ u * (b - a) := mul_le_mul_of_nonneg_right u0 (by linarith)
      linarith
    · have : (1 + 5 / 1000) * (b - a) ≤ u * (b - a) := mul_le_mul_of_nonpos_right u1 (by linarith)
      linarith
  simp only [pointAt] at ex ey
  match k, hk with
  | 0, hk =>
    simp [roomWalls] at hk; subst hk
    simp only at ey
    exact one (p.y - y0) (q.y - y0) (y1 - y0) (by linarith) (by linarith [fp0 rfl]) (by linarith) (by linarith [fq0 rfl]) (by linarith) (by linarith)
  | 1, hk =>
    simp [roomWalls] at hk; subst hk
    simp only at ex
    exact one (x1 - p.x) (x1 - q.x) (x1 - x0) (by linarith) (by linarith [fp1 rfl]) (by linarith) (by linarith [fq1 rfl]) (by linarith) (by linarith)
  | 2, hk =>
    simp [roomWalls] at hk; subst hk
    simp only at ey
    exact one (y1 - p.y) (y1 - q.y) (y1 - y0) (by linarith) (by linarith [fp2 rfl]) (by linarith) (by linarith [fq2 rfl]) (by linarith) (by linarith)
  | 3, hk =>
    simp [roomWalls] at hk; subst hk
    simp only at ex
    exact one (p.x - x0) (q.x - x0) (x1 - x0) (by linarith) (by linarith [fp3 rfl]) (by linarith) (by linarith [fq3 rfl]) (by linarith) (by linarith)
  | k + 4, hk => simp [roomWalls] at hk

theorem wellInside_far {x0 x1 y0 y1 : ℝ} {p : Pt} (h : WellInside x0 x1 y0 y1 p) (k : ℕ) : Far x0 x1 y0 y1 k p := ⟨fun _ => h.2.2.1, fun _ => h.2.1, fun _ => h.2.2.2, fun _ => h.1⟩

theorem wellInside_within {x0 x1 y0 y1 : ℝ} (hx : x0 < x1) (hy : y0 < y1) {p : Pt} (h : WellInside x0 x1 y0 y1 p) : WithinRoom x0 x1 y0 y1 p :=
  ⟨by linarith [h.1], by linarith [h.2.1], by linarith [h.2.2.1], by linarith [h.2.2.2]⟩

theorem wl_get {x0 x1 y0 y1 : ℝ} {k : ℕ} (hk : k < 4) : (roomWalls x0 x1 y0 y1)[k]? = some (wl x0 x1 y0 y1 k) := by
  unfold wl
  rw [List.getD_eq_getElem?_getD, List.getElem?_eq_getElem (by simpa [roomWalls] using hk)]
  simp

/-- **C112.** Conversely, the path to an image of the receiver is there when the straight line to this image keeps away from the corners and both ends are away from the
walls. -/
theorem C112_exists (x0 x1 y0 y1 : ℝ) (hx : x0 < x1) (hy : y0 < y1) (t r : Pt) (ht : WellInside x0 x1 y0 y1 t) (hr : WellInside x0 x1 y0 y1 r) (patch : ℝ) (m : ℤ × ℤ)
    (hm : KeepsClear x0 x1 y0 y1 t (roomImage x0 x1 y0 y1 r m)) :
    ∃ c pts, IsCandidate 4 c ∧ (c.length : ℤ) = |m.1| + |m.2| ∧ RayPath (roomWalls x0 x1 y0 y1) patch t r c pts ∧
      polyLength pts = eucl t (roomImage x0 x1 y0 y1 r m) ∧ ∀ q, pts[1]? = some q → q ≠ t → SameDirection t q (roomImage x0 x1 y0 y1 r m) := by
  obtain ⟨c, qs, h1, h2, h3, h4, -, h7, κ, hκ, h6⟩ := room_path hx hy hr (|m.1| + |m.2|).toNat m.1 m.2 none t
    (by rw [Int.toNat_of_nonneg (by positivity)]) (wellInside_within hx hy ht) (fun k _ => wellInside_far ht k) (by simp [Behind]) hm
  have hlen := h2.length_eq
  have hcl : ∀ (i k : ℕ), c[i]? = some k → k < 4 := by
    intro i k hi
    obtain ⟨hlt, rfl⟩ := List.getElem?_eq_some_iff.mp hi
    have := (List.forall₂_iff_get.mp h2).2 i hlt (by omega)
    exact this.1
  have hF : ∀ (i k : ℕ) (q : Pt), c[i]? = some k → qs[i]? = some q → OnSegment (wl x0 x1 y0 y1 k).1 (wl x0 x1 y0 y1 k).2 q ∧ WithinRoom x0 x1 y0 y1 q ∧ ∀ k', k' ≠ k → Far x0 x1 y0 y1 k' q := by
    intro i k q hi hq
    obtain ⟨hlt, rfl⟩ := List.getElem?_eq_some_iff.mp hi
    obtain ⟨hlt', rfl⟩ := List.getElem?_eq_some_iff.mp hq
    exact ((List.forall₂_iff_get.mp h2).2 i hlt hlt').2
  set C : List ℤ := c.map (fun k : ℕ => (k : ℤ)) with hC
  have hCi : ∀ (i j : ℕ), C[i]? = some (j : ℤ) ↔ c[i]? = some j := by
    intro i j
    rw [hC, List.getElem?_map]
    cases c[i]? <;> simp
  -- each point is in the room, and away from the walls that are not its own
  have hall : ∀ (i : ℕ) (a : Pt), (t :: qs ++ [r])[i]? = some a → WithinRoom x0 x1 y0 y1 a ∧ ∀ j, (∀ k, i = k + 1 → c[k]? ≠ some j) → Far x0 x1 y0 y1 j a := by
    intro i a ha
    cases i with
    | zero =>
      simp at ha; subst ha
      exact ⟨wellInside_within hx hy ht, fun j _ => wellInside_far ht j⟩
    | succ i =>
      rw [List.cons_append, List.getElem?_cons_succ] at ha
      by_cases hi : i < qs.length
      · rw [List.getElem?_append_left hi] at ha
        have hci : c[i]? = some c[i] := List.getElem?_eq_getElem (by omega)
        obtain ⟨-, b, d⟩ := hF i _ a hci ha
        exact ⟨b, fun j hj => d j fun e => hj i rfl (by rw [hci, e])⟩
      · rw [List.getElem?_append_right (by omega)] at ha
        have hi0 : i - qs.length = 0 := by
          by_contra h0
          rw [List.getElem?_eq_none (by simp; omega)] at ha
          simp at ha
        rw [hi0] at ha
        simp at ha; subst ha
        exact ⟨wellInside_within hx hy hr, fun j _ => wellInside_far hr j⟩
  have hCand : IsCandidate 4 C := by
    refine ⟨fun i hi => ?_, fun i a b ha hb => ?_⟩
    · obtain ⟨k, hk, rfl⟩ := List.mem_map.mp hi
      obtain ⟨j, hj⟩ := List.getElem?_of_mem hk
      have := hcl j k hj
      omega
    · obtain ⟨k, hk, rfl⟩ : ∃ k, c[i]? = some k ∧ (k : ℤ) = a := by simpa [hC] using ha
      obtain ⟨k', hk', rfl⟩ : ∃ k, c[i + 1]? = some k ∧ (k : ℤ) = b := by simpa [hC] using hb
      obtain ⟨l1, rfl⟩ := List.getElem?_eq_some_iff.mp hk
      obtain ⟨l2, rfl⟩ := List.getElem?_eq_some_iff.mp hk'
      have := List.isChain_iff_getElem.mp h4 i (by omega)
      exact_mod_cast this
  have hwls : ∀ w ∈ c.map (wl x0 x1 y0 y1), w.1 ≠ w.2 := by
    intro w hw
    obtain ⟨k, hk, rfl⟩ := List.mem_map.mp hw
    obtain ⟨j, hj⟩ := List.getElem?_of_mem hk
    exact roomWalls_ne hx hy _ (List.mem_of_getElem? (wl_get (hcl j k hj)))
  have hR : RayPath (roomWalls x0 x1 y0 y1) patch t r C (t :: qs ++ [r]) := by
    refine ⟨rfl, by rw [List.getLast?_append]; simp, by simp [hC, hlen], fun i j w p q q' hi hj hp hq hq' => ?_, fun i j w p q hp hq hj hadj => ?_⟩
    · rw [hCi] at hi
      have hj4 := hcl i j hi
      rw [wl_get hj4] at hj
      obtain rfl := Option.some.inj hj
      refine ⟨reflChain_get h3 i _ p q q' (by rw [List.getElem?_map, hi]; rfl) hp hq hq', ?_⟩
      have hlt : i < qs.length := by
        obtain ⟨l, -⟩ := List.getElem?_eq_some_iff.mp hi; omega
      rw [List.cons_append, List.getElem?_cons_succ, List.getElem?_append_left hlt] at hq
      exact (hF i j q hi hq).1
    · obtain ⟨a1, a2⟩ := hall i p hp
      obtain ⟨b1, b2⟩ := hall (i + 1) q hq
      refine not_blocks hj hx hy a1 b1 (a2 j fun k hk h => hadj (.inr ⟨k, hk, (hCi _ _).mpr h⟩)) (b2 j fun k hk h => hadj (.inl ?_))
      rw [hCi]
      have : i = k := by omega
      rw [this]; exact h
  refine ⟨C, t :: qs ++ [r], hCand, by rw [← h1, hC]; simp, hR, ?_, ?_⟩
  · have := (unfold_dir _ hwls t r qs (by rw [List.length_map, hlen]) h3).2
    rw [h7] at this
    exact this.symm
  · intro q hq hne
    refine ⟨hne, κ, hκ, ?_⟩
    have : q = qs.headD r := by cases qs <;> simp at hq <;> simp [hq]
    rw [this]
    exact ⟨by simpa using congrArg V2.x h6, by simpa using congrArg V2.y h6⟩

theorem cell_inj {z0 z1 z : ℝ} (h0 : z0 < z) (h1 : z < z1) {m m' : ℤ} (h : cell z0 z1 z m = cell z0 z1 z m') : m = m' := by
  have strict : ∀ n : ℤ, z0 + n * (z1 - z0) < cell z0 z1 z n ∧ cell z0 z1 z n < z1 + n * (z1 - z0) := by
    intro n; unfold cell; split_ifs <;> constructor <;> linarith
  have a := strict m
  have b := strict m'
  rw [h] at a
  have hd : 0 < z1 - z0 := by linarith
  by_contra hne
  rcases lt_or_gt_of_ne hne with hlt | hlt
  · have : (m : ℝ) + 1 ≤ m' := by exact_mod_cast hlt
    nlinarith
  · have : (m' : ℝ) + 1 ≤ m := by exact_mod_cast hlt
    nlinarith

theorem roomImage_inj {x0 x1 y0 y1 : ℝ} {r : Pt} (h : InsideRoom x0 x1 y0 y1 r) {m m' : ℤ × ℤ} (e : roomImage x0 x1 y0 y1 r m = roomImage x0 x1 y0 y1 r m') : m = m' :=
  Prod.ext (cell_inj h.1 h.2.1 (congrArg V2.x e)) (cell_inj h.2.2.1 h.2.2.2 (congrArg V2.y e))

theorem diamond_card_eq (n : ℕ) : (diamond n).card = 4 * n := by
  have hi : ∀ f : ℕ → ℤ × ℤ, Function.Injective f → ((Finset.range n).image f).card = n := fun f hf => by
    rw [Finset.card_image_of_injective _ hf, Finset.card_range]
  unfold diamond
  rw [Finset.card_union_of_disjoint, Finset.card_union_of_disjoint, Finset.card_union_of_disjoint, hi, hi, hi, hi]
  · omega
  all_goals first
    | (intro a b h; simp only [Prod.mk.injEq] at h; omega)
    | (rw [Finset.disjoint_left]
       rintro ⟨a, b⟩ h1 h2
       simp only [Finset.mem_union, Finset.mem_image, Finset.mem_range, Prod.mk.injEq] at h1 h2
       obtain ⟨k2, a2, b2, c2⟩ := h2
       rcases h1 with (⟨k, a1, b1, c1⟩ | ⟨k, a1, b1, c1⟩) | ⟨k, a1, b1, c1⟩ <;> omega)
    | (rw [Finset.disjoint_left]
       rintro ⟨a, b⟩ h1 h2
       simp only [Finset.mem_union, Finset.mem_image, Finset.mem_range, Prod.mk.injEq] at h1 h2
       obtain ⟨k2, a2, b2, c2⟩ := h2
       rcases h1 with ⟨k, a1, b1, c1⟩ | ⟨k, a1, b1, c1⟩ <;> omega)
    | (rw [Finset.disjoint_left]
       rintro ⟨a, b⟩ h1 h2
       simp only [Finset.mem_union, Finset.mem_image, Finset.mem_range, Prod.mk.injEq] at h1 h2
       obtain ⟨k2, a2, b2, c2⟩ := h2
       obtain ⟨k, a1, b1, c1⟩ := h1
       omega)

theorem diamond_mem {n : ℕ} {m : ℤ × ℤ} (h : m ∈ diamond n) : |m.1| + |m.2| = n := by
  obtain ⟨a, b⟩ := m
  simp only [diamond, Finset.mem_union, Finset.mem_image, Finset.mem_range, Prod.mk.injEq] at h
  rcases h with ((⟨k, a1, rfl, rfl⟩ | ⟨k, a1, rfl, rfl⟩) | ⟨k, a1, rfl, rfl⟩) | ⟨k, a1, rfl, rfl⟩
  · rw [abs_of_pos (by omega), abs_of_nonneg (by omega)]; ring
  · rw [abs_of_nonpos (by omega), abs_of_pos (by omega)]; ring
  · rw [abs_of_neg (by omega), abs_of_nonpos (by omega)]; ring
  · rw [abs_of_nonneg (by omega), abs_of_neg (by omega)]; ring

/-- **C112.** The bound is sharp, and attained when nothing is close to a corner: if both ends are away from the walls and the straight lines to all the images that are seen through `n ≥ 1` reflections keep
away from the corners, then `all_valid_paths` yields exactly `4 * n` paths of `n` reflections between them. -/
theorem C112_exact {Key : Type} (G : GraphLib) (hG : GraphContract G) (tx rx : PyDict Pt) (ht : Distinct tx) (hr : Distinct rx)
    (x0 x1 y0 y1 : ℝ) (hx : x0 < x1) (hy : y0 < y1) (lo hi : ℤ) (hlo : 0 ≤ lo) (split : Key → ℕ → List Key) (key : Option Key)
    (E : Env) (approx : Option Bool) (hh : Hard E approx) (kw : ActKw) (tol patch : ℝ) (h0 : 0 < tol) (h1 : tol ≤ 1) (hp : -(1 / 202) ≤ patch) :
    ∃ out, (wallScene tx rx (roomWalls x0 x1 y0 y1)).allValidPaths G split (imageMethod Key) { minOrder := lo, maxOrder := hi }
        ⟨E, F.fin tol, F.fin patch, approx, kw⟩ key = .ok out ∧
      ∀ tn rn t r (n : ℕ), (tn, t) ∈ tx → (rn, r) ∈ rx → WellInside x0 x1 y0 y1 t → WellInside x0 x1 y0 y1 r → 0 < n → lo ≤ n → (n : ℤ) ≤ hi →
        (∀ m : ℤ × ℤ, |m.1| + |m.2| = n → KeepsClear x0 x1 y0 y1 t (roomImage x0 x1 y0 y1 r m)) →
        (out.filter fun x => x.1 = tn ∧ x.2.1 = rn ∧ x.2.2.2.length = n).length = 4 * n := by
  obtain ⟨out, e, hle⟩ := C112_all_valid_paths G hG tx rx ht hr x0 x1 y0 y1 hx hy lo hi hlo split key E approx hh kw tol patch h0 h1 hp
  obtain ⟨out', e', s1, -, s3⟩ := C74_valid_paths G hG tx rx ht hr _ (roomWalls_ne hx hy) lo hi hlo split key E approx hh kw tol patch h0 h1 (by linarith)
  rw [e] at e'
  obtain rfl := Except.ok.inj e'
  refine ⟨out, e, fun tn rn t r n htm hrm hti hri hn hl hl' hc => ?_⟩
  have hin : InsideRoom x0 x1 y0 y1 r := ⟨by linarith [hri.1], by linarith [hri.2.1], by linarith [hri.2.2.1], by linarith [hri.2.2.2]⟩
  refine le_antisymm (hle tn rn r n hrm hin hn) ?_
  set L := out.filter fun x => x.1 = tn ∧ x.2.1 = rn ∧ x.2.2.2.length = n with hL
  have hex : ∀ m ∈ diamond n, ∃ s : List ℤ × List Pt, (tn, rn, finitePath s.2 0, s.1) ∈ L ∧ polyLength s.2 = eucl t (roomImage x0 x1 y0 y1 r m) ∧
      (IsCandidate 4 s.1 ∧ s.1.length = n ∧ RayPath (roomWalls x0 x1 y0 y1) patch t r s.1 s.2) ∧
      ∀ q, s.2[1]? = some q → q ≠ t → SameDirection t q (roomImage x0 x1 y0 y1 r m) := by
    intro m hm
    obtain ⟨c, pts, a1, a2, a3, a4, a5⟩ := C112_exists x0 x1 y0 y1 hx hy t r hti hri patch m (hc m (diamond_mem hm))
    rw [diamond_mem hm] at a2
    have a2' : c.length = n := by exact_mod_cast a2
    refine ⟨(c, pts), ?_, a4, ⟨a1, a2', a3⟩, a5⟩
    rw [hL, List.mem_filter]
    exact ⟨s3 tn t rn r c pts htm hrm a1 (by omega) (by omega) a3, by simp [a2']⟩
  choose! path hpath using hex
  have hinj : Set.InjOn (fun m => (tn, rn, finitePath (path m).2 0, (path m).1)) (diamond n : Set (ℤ × ℤ)) := by
    intro m hm m' hm' e
    obtain ⟨-, b1, ⟨c1, c2, c3⟩, d1⟩ := hpath m hm
    obtain ⟨-, b2, ⟨c1', c2', c3'⟩, d2⟩ := hpath m' hm'
    simp only [Prod.mk.injEq, true_and] at e
    have ep : (path m).2 = (path m').2 := (finitePath_inj e.1).1
    rw [← ep] at b2 d2
    apply roomImage_inj hin
    have hcnt := c3.count
    have e1 : (path m).2[1]? = some (path m).2[1] := List.getElem?_eq_getElem (by omega)
    have hne : (path m).2[1] ≠ t := by
      obtain ⟨j, w, hj, hw⟩ := cand_wall (walls := roomWalls x0 x1 y0 y1) c1 (i := 0) (by omega)
      have e0 : (path m).2[0]? = some t := by rw [← List.head?_eq_getElem?]; exact c3.start
      obtain ⟨hR, -⟩ := c3.reflected 0 j w t _ _ hj hw e0 e1 (List.getElem?_eq_getElem (by omega))
      intro hq
      have := hR.same
      rw [hq] at hR
      rw [line_side hR.on] at this
      simp at this
    obtain ⟨-, k, hk, kx, ky⟩ := d1 _ e1 hne
    obtain ⟨-, k', hk', kx', ky'⟩ := d2 _ e1 hne
    have hk2 : eucl t (roomImage x0 x1 y0 y1 r m) = k * eucl t (path m).2[1] := eucl_smul hk.le (by ext <;> simp [kx, ky])
    have hk2' : eucl t (roomImage x0 x1 y0 y1 r m') = k' * eucl t (path m).2[1] := eucl_smul hk'.le (by ext <;> simp [kx', ky'])
    have hpos : (0 : ℝ) < eucl t (path m).2[1] := by
      rw [eucl]
      exact Real.sqrt_pos.mpr (Opaque.sq_pos hne.symm)
    have hkk : k = k' := by
      apply mul_right_cancel₀ hpos.ne'
      rw [← hk2, ← hk2', ← b1, ← b2]
    subst hkk
    ext <;> linarith
  rw [← diamond_card_eq n]
  classical
  calc (diamond n).card ≤ L.toFinset.card := Finset.card_le_card_of_injOn _ (fun m hm => Finset.mem_coe.mpr (List.mem_toFinset.mpr (hpath m hm).1)) hinj
    _ ≤ L.length := List.toFinset_card_le _

/-- Between the lines of the tiling. -/
theorem between {z0 z1 z : ℝ} (h0 : z0 + (z1 - z0) / 200 < z) (h1 : z < z1 - (z1 - z0) / 200) (k : ℤ) : (z1 - z0) / 200 < |z - (z0 + k * (z1 - z0))| := by
  have hd : 0 < z1 - z0 := by linarith
  rcases le_or_gt k 0 with hk | hk
  · have : (k : ℝ) ≤ 0 := by exact_mod_cast hk
    refine lt_of_lt_of_le ?_ (le_abs_self _)
    nlinarith
  · have : (1 : ℝ) ≤ k := by exact_mod_cast hk
    refine lt_of_lt_of_le ?_ (neg_le_abs _)
    nlinarith

/-- **C112.** In particular there are exactly four paths of one reflection when both ends are away from the walls. -/
theorem C112_first {Key : Type} (G : GraphLib) (hG : GraphContract G) (tx rx : PyDict Pt) (ht : Distinct tx) (hr : Distinct rx)
    (x0 x1 y0 y1 : ℝ) (hx : x0 < x1) (hy : y0 < y1) (lo hi : ℤ) (hlo : 0 ≤ lo) (hl1 : lo ≤ 1) (hh1 : 1 ≤ hi) (split : Key → ℕ → List Key) (key : Option Key)
    (E : Env) (approx : Option Bool) (hh : Hard E approx) (kw : ActKw) (tol patch : ℝ) (h0 : 0 < tol) (h1 : tol ≤ 1) (hp : -(1 / 202) ≤ patch) :
    ∃ out, (wallScene tx rx (roomWalls x0 x1 y0 y1)).allValidPaths G split (imageMethod Key) { minOrder := lo, maxOrder := hi }
        ⟨E, F.fin tol, F.fin patch, approx, kw⟩ key = .ok out ∧
      ∀ tn rn t r, (tn, t) ∈ tx → (rn, r) ∈ rx → WellInside x0 x1 y0 y1 t → WellInside x0 x1 y0 y1 r →
        (out.filter fun x => x.1 = tn ∧ x.2.1 = rn ∧ x.2.2.2.length = 1).length = 4 := by
  obtain ⟨out, e, h⟩ := C112_exact G hG tx rx ht hr x0 x1 y0 y1 hx hy lo hi hlo split key E approx hh kw tol patch h0 h1 hp
  refine ⟨out, e, fun tn rn t r htm hrm hti hri => h tn rn t r 1 htm hrm hti hri one_pos (by simpa using hl1) (by simpa using hh1) fun m hm s j k s0 s1 => ?_⟩
  have conv : ∀ z0 z1 a b : ℝ, z0 < a → z0 < b → a < z1 → b < z1 → z0 < a + s * (b - a) ∧ a + s * (b - a) < z1 := by
    intro z0 z1 a b a0 b0 a1 b1
    rcases le_total a b with hab | hab
    · constructor <;> nlinarith
    · constructor <;> nlinarith
  have habs1 := abs_nonneg m.1
  have habs2 := abs_nonneg m.2
  by_cases hz : m.2 = 0
  · have hb := conv _ _ _ _ hti.2.2.1 hri.2.2.1 hti.2.2.2 hri.2.2.2
    have hb' := between hb.1 hb.2 k
    simp only [roomImage, hz, cell_zero, pointAt]
    refine ⟨fun _ => hb', fun he => ?_⟩
    rw [he] at hb'
    simp at hb'
    linarith
  · have hz' : m.1 = 0 := by
      have := abs_pos.mpr hz
      exact abs_eq_zero.mp (by push_cast at hm; omega)
    have hb := conv _ _ _ _ hti.1 hri.1 hti.2.1 hri.2.1
    have hb' := between hb.1 hb.2 j
    simp only [roomImage, hz', cell_zero, pointAt]
    refine ⟨fun he => ?_, fun _ => hb'⟩
    rw [he] at hb'
    simp at hb'
    linarith

/-- Non-vacuity: in the unit square with the ends at `(1/10, 1/10)` and `(1/2, 3/5)`, there are four paths of one reflection. -/
example (E : Env) (kw : ActKw) : ∃ out, (wallScene [("tx", ⟨1 / 10, 1 / 10⟩)] [("rx", ⟨1 / 2, 3 / 5⟩)] (roomWalls 0 1 0 1)).allValidPaths refLib (fun _ : Unit => fun _ => []) (imageMethod Unit)
    { minOrder := 0, maxOrder := 1 } ⟨E, F.fin (1 / 100), F.fin 0, some false, kw⟩ none = .ok out ∧
      (out.filter fun x => x.1 = "tx" ∧ x.2.1 = "rx" ∧ x.2.2.2.length = 1).length = 4 := by
  obtain ⟨out, e, h⟩ := C112_first refLib refLib_contract [("tx", ⟨1 / 10, 1 / 10⟩)] [("rx", ⟨1 / 2, 3 / 5⟩)] (by simp [Distinct]) (by simp [Distinct]) 0 1 0 1 one_pos one_pos
    0 1 le_rfl zero_le_one le_rfl (fun _ : Unit => fun _ => []) none E (some false) (.inl rfl) kw (1 / 100) 0 (by norm_num) (by norm_num) (by norm_num)
  exact ⟨out, e, h "tx" "rx" ⟨1 / 10, 1 / 10⟩ ⟨1 / 2, 3 / 5⟩ (by simp) (by simp) (by norm_num [WellInside]) (by norm_num [WellInside])⟩

end DiffeRT2d.Props
