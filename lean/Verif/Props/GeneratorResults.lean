import Verif.Props.Generators
import Verif.Props.Accumulate

/-! # Property C95: generators, continued — `accumulate_over_paths`, and given `approx` -/

namespace DiffeRT2d.Props
open Spec Classical

/-! ## Explicit mode -/

theorem foldl_congr' {α β : Type*} (l : List α) (f g : β → α → β) (h : ∀ a ∈ l, ∀ b, f b a = g b a) (b : β) :
    l.foldl f b = l.foldl g b := by
  induction l generalizing b with
  | nil => rfl
  | cons a l ih =>
    rw [List.foldl_cons, List.foldl_cons, h a (by simp) b]
    exact ih (fun x hx => h x (by simp [hx])) _

theorem honours_builtin : (∀ w, HonoursApprox (.wall w)) ∧ (∀ r, HonoursApprox (.ris r)) ∧ (∀ x, HonoursApprox (.vertex x)) :=
  ⟨fun _ _ _ _ _ => ⟨fun _ => rfl, fun _ _ _ => rfl⟩, fun _ _ _ _ _ => ⟨fun _ => rfl, fun _ _ _ => rfl⟩,
    fun _ _ _ _ _ => ⟨fun _ => rfl, fun _ _ _ => rfl⟩⟩

theorem isValid_explicit (p : Path) (objects os : List Obj) (h : ∀ x ∈ objects, HonoursApprox x) (h' : ∀ x ∈ os, HonoursApprox x)
    (E E' : Env) (b : Bool) (c : List ℤ) (tol patch : F) (kw : ActKw) :
    p.isValid E (objects.map Obj.interact) c (os.map Obj.interact) tol patch (some b) kw =
      p.isValid E' (objects.map Obj.interact) c (os.map Obj.interact) tol patch (some b) kw := by
  have hon : p.onObjects E (os.map Obj.interact) (some b) kw = p.onObjects E' (os.map Obj.interact) (some b) kw := by
    unfold Path.onObjects
    apply foldl_congr'
    rintro ⟨x, i⟩ hx z
    have hx' : x ∈ os.map Obj.interact := by
      have := List.mem_zipIdx hx
      rw [this.2.2]; exact List.getElem_mem _
    obtain ⟨ob, hob, rfl⟩ := List.mem_map.mp hx'
    simp only [(h' ob hob E E' b kw).1]
    rfl
  have hin : p.intersectsWithObjects E (objects.map Obj.interact) c patch (some b) kw =
      p.intersectsWithObjects E' (objects.map Obj.interact) c patch (some b) kw := by
    unfold Path.intersectsWithObjects
    simp only
    congr 2
    apply foldl_congr'
    intro i _ z
    apply foldl_congr'
    rintro ⟨x, k⟩ hx z
    have hx' : x ∈ objects.map Obj.interact := by
      have := List.mem_zipIdx hx
      rw [this.2.2]; exact List.getElem_mem _
    obtain ⟨ob, hob, rfl⟩ := List.mem_map.mp hx'
    simp only [(h ob hob E E' b kw).2]
    rfl
  unfold Path.isValid
  rw [hon, hin]
  rfl

section
variable {Key : Type} (s : Scene) (G : GraphLib) (split : Key → ℕ → List Key) (m : Scene.PathMethod Key) (o : Scene.Orders)
  (v : Scene.ValidOpts) (key : Option Key)

theorem interacting_mem (c : List ℤ) (os : List Obj) (hos : s.getInteractingObjects c = .ok os) : ∀ x ∈ os, x ∈ s.objects := by
  have key : ∀ (f : ℤ → Except PyErr Obj), (∀ i x, f i = .ok x → x ∈ s.objects) → c.mapM f = .ok os → ∀ x ∈ os, x ∈ s.objects := by
    intro f hf h x hx
    obtain ⟨i, _, hi⟩ := forall₂_mem ((mapM_iff _ _ _).mp h) hx
    exact hf i x hi
  unfold Scene.getInteractingObjects at hos
  split at hos
  · refine key _ ?_ hos
    intro i x hx
    unfold Scene.getObject at hx
    cases hob : s.objects with
    | nil => rw [hob] at hx; cases hx
    | cons a as =>
      rw [hob] at hx
      simp only at hx
      split at hx
      · cases hx
        have hlt : min i.toNat as.length < (a :: as).length := by simp
        rw [List.getD_eq_getElem?_getD, List.getElem?_eq_getElem hlt]
        exact List.getElem_mem hlt
      · cases hx
  · refine key _ ?_ hos
    intro i x hx
    unfold Scene.pyIndex at hx
    generalize (if i < 0 then i + (s.objects.length : ℤ) else i) = j at hx
    simp only at hx
    split at hx
    · cases hx
    · split at hx
      · cases hx
      · cases hx
        rename_i h; exact List.mem_of_getElem? h

theorem traceOne_explicit (h : ∀ x ∈ s.objects, HonoursApprox x) (b : Bool) (hv : v.approx = some b) (E E' : Env) (k : Option Key) (e) :
    s.traceOne split m { v with E := E } k e = s.traceOne split m { v with E := E' } k e := by
  unfold Scene.traceOne
  cases hos : s.getInteractingObjects e.2 with
  | error err => rfl
  | ok os =>
    simp only [bind, Except.bind]
    cases m.trace (Scene.splitKey split k).2 e.1.1.2 os e.1.2.2 with
    | error err => rfl
    | ok p =>
      simp only [validity_eq, hv]
      rw [isValid_explicit p s.objects os h (fun x hx => h x (interacting_mem s _ _ hos x hx)) E E']

/-- **C95.** With a given `approx` (and a path class that does not read the setting), nothing depends on the surroundings of the calls of
`next`: `all_paths`, `all_valid_paths` and `accumulate_over_paths` give the same whatever the setting is at each call. -/
theorem C95_explicit (h : ∀ x ∈ s.objects, HonoursApprox x) (b : Bool) (hv : v.approx = some b) (f : Scene.PathFun) (es es' : ℕ → Env) (n : ℕ) :
    (Scene.allPathsGen Key).outcome (s.allPathsBody G split (fun _ => m) o v key) es n =
      (Scene.allPathsGen Key).outcome (s.allPathsBody G split (fun _ => m) o v key) es' n ∧
    (Scene.allPathsGen Key).outcome (s.allValidBody G split (fun _ => m) o v key) es n =
      (Scene.allPathsGen Key).outcome (s.allValidBody G split (fun _ => m) o v key) es' n ∧
    (Scene.resultsGen Key).outcome (s.resultsBody G split (fun _ => m) o v key f) es n =
      (Scene.resultsGen Key).outcome (s.resultsBody G split (fun _ => m) o v key f) es' n := by
  have gen : ∀ {σ α : Type} (body : Env → σ → Resume σ α), (∀ E E', body E = body E') → ∀ g : GenObj σ,
      g.outcome body es n = g.outcome body es' n := by
    intro σ α body hb g
    have ha : ∀ n, g.after body es n = g.after body es' n := by
      intro n
      induction n with
      | zero => rfl
      | succ n ih => unfold GenObj.after; rw [ih, hb (es n) (es' n)]
    unfold GenObj.outcome
    rw [ha, hb (es n) (es' n)]
  have h1 : ∀ E E' k todo, s.allPathsLoop split m { v with E := E } k todo = s.allPathsLoop split m { v with E := E' } k todo := by
    intro E E' k todo
    cases todo with
    | nil => rfl
    | cons e todo => simp only [Scene.allPathsLoop, traceOne_explicit s split m v h b hv E E']
  have h2 : ∀ E E' k todo, s.allValidLoop split m { v with E := E } k todo = s.allValidLoop split m { v with E := E' } k todo := by
    intro E E' k todo
    induction todo generalizing k with
    | nil => rfl
    | cons e todo ih =>
      unfold Scene.allValidLoop
      rw [traceOne_explicit s split m v h b hv E E', ih]
      simp only [hv]
      rfl
  have h3 : ∀ E E' t r kk acc k todo, s.groupLoop split m { v with E := E } f t r kk acc k todo =
      s.groupLoop split m { v with E := E' } f t r kk acc k todo := by
    intro E E' t r kk acc k todo
    induction todo generalizing k acc with
    | nil => rfl
    | cons e todo ih =>
      unfold Scene.groupLoop
      rw [traceOne_explicit s split m v h b hv E E']
      simp only [ih]
  have hb1 : ∀ E E', s.allPathsBody G split (fun _ => m) o v key E = s.allPathsBody G split (fun _ => m) o v key E' := by
    intro E E'
    funext st
    cases st with
    | start => simp only [Scene.allPathsBody, h1 E E']
    | loop k todo => simp only [Scene.allPathsBody, h1 E E']
  refine ⟨gen _ hb1 _, gen _ ?_ _, gen _ ?_ _⟩
  · intro E E'
    funext st
    cases st with
    | start => simp only [Scene.allValidBody, h2 E E']
    | loop k todo => simp only [Scene.allValidBody, h2 E E']
  · intro E E'
    funext st
    simp only [Scene.resultsBody, Scene.resultsGroup, h3 E E', hb1 E E']

end

/-! ## `accumulate_over_paths` -/

section
variable {Key : Type} (s : Scene) (G : GraphLib) (split : Key → ℕ → List Key) (m : Env → Scene.PathMethod Key) (o : Scene.Orders)
  (v : Scene.ValidOpts) (key : Option Key)

theorem pathResult_names {m : Scene.PathMethod Key} {v : Scene.ValidOpts} {k : Option Key} {t r : String × V2 F} {c : List ℤ}
    {x : Scene.Traced} (h : pathResult s m v k t r c = .ok x) : x.tx = t.1 ∧ x.rx = r.1 ∧ x.candidate = c := by
  unfold pathResult at h
  split at h
  · cases h
  · split at h
    · cases h
    · cases h; exact ⟨rfl, rfl, rfl⟩

/-- Through the first `i` paths of the rest of a group. -/
theorem group_run {tx rx : PyDict (V2 F)} {cs : List (List ℤ)} (hc : ∀ c ∈ cs, IsCandidate s.objects.length c) (E : Env)
    (f : Scene.PathFun) (q : ℕ) (t r : String × V2 F) (hq : (tx ×ˢ rx)[q]? = some (t, r)) (i : ℕ) (hi : i + 1 ≤ cs.length)
    (x : ℕ → Scene.Traced)
    (hx : ∀ k < i, (Job.mk s tx rx cs (fun n => keyAt split n key) m v).result E (q * cs.length + 1 + k) = .ok (x (q * cs.length + 1 + k)))
    (acc : F) :
    s.groupLoop split (m E) { v with E := E } f t.2 r.2 (t.1, r.1) acc (chainKey split (q * cs.length + 1) key)
        (((tx ×ˢ rx) ×ˢ cs).drop (q * cs.length + 1)) =
      s.groupLoop split (m E) { v with E := E } f t.2 r.2 (t.1, r.1)
        (((List.range i).map fun k => x (q * cs.length + 1 + k)).foldl (fun a y => a + weighted s f t.2 r.2 y) acc)
        (chainKey split (q * cs.length + 1 + i) key) (((tx ×ˢ rx) ×ˢ cs).drop (q * cs.length + 1 + i)) := by
  set a := q * cs.length + 1 with ha
  set todo := (tx ×ˢ rx) ×ˢ cs with htodo
  have hget : ∀ k < i, ∃ c ∈ cs, todo[a + k]? = some ((t, r), c) := by
    intro k hk
    have hlt : k + 1 < cs.length := by omega
    refine ⟨cs[k + 1], List.getElem_mem _, ?_⟩
    have := product_get (tx ×ˢ rx) cs q (k + 1) (t, r) cs[k + 1] hq (List.getElem?_eq_getElem hlt)
    rw [show a + k = q * cs.length + (k + 1) by omega]
    exact this
  have hlen : i ≤ (todo.drop a).length := by
    by_contra hcon
    rw [List.length_drop] at hcon
    rcases Nat.eq_zero_or_pos i with h0 | h0
    · omega
    · obtain ⟨c, _, hcc⟩ := hget (i - 1) (by omega)
      have := (List.getElem?_eq_some_iff.mp hcc).1
      omega
  have hinfo : ∀ k < i, x (a + k) = x (a + k) ∧ (x (a + k)).tx = t.1 ∧ (x (a + k)).rx = r.1 ∧
      IsCandidate s.objects.length (x (a + k)).candidate := by
    intro k hk
    obtain ⟨c, hcm, hce⟩ := hget k hk
    have h1 := hx k hk
    unfold Job.result at h1
    simp only [← htodo, hce] at h1
    obtain ⟨e1, e2, e3⟩ := pathResult_names s h1
    exact ⟨rfl, e1, e2, by rw [e3]; exact hc c hcm⟩
  conv_lhs => rw [← List.take_append_drop i (todo.drop a)]
  rw [groupLoop_run s split _ (m E) f t.2 r.2 (t.1, r.1) _ _ ((List.range i).map fun k => x (a + k)) acc (chainKey split a key)]
  · rw [List.length_take, min_eq_left hlen, chainKey_add, List.drop_drop]
  · simpa using hlen
  · intro k e y he hy
    have hk : k < i := by
      have := (List.getElem?_eq_some_iff.mp hy).1
      simpa using this
    rw [List.getElem?_take_of_lt hk, List.getElem?_drop] at he
    rw [List.getElem?_map, List.getElem?_range hk] at hy
    simp only [Option.map_some, Option.some.injEq] at hy
    rw [chainKey_add, ← result_eq s split m v key hc E _ e he, ← hy]
    exact hx k hk
  · intro y hy
    obtain ⟨k, hk, rfl⟩ := List.mem_map.mp hy
    obtain ⟨_, e1, e2, _⟩ := hinfo k (List.mem_range.mp hk)
    rw [e1, e2]
  · intro y hy
    obtain ⟨k, hk, rfl⟩ := List.mem_map.mp hy
    exact (hinfo k (List.mem_range.mp hk)).2.2.2

/-- The accumulated value of one pair: `f` weighted by the validity, summed over the given paths. -/
noncomputable def pairSum (f : Scene.PathFun) (t r : V2 F) (xs : List Scene.Traced) : F := F.sum (xs.map (weighted s f t r))

/-- One group of `accumulate_over_paths`. -/
theorem group_step {tx rx : PyDict (V2 F)} (ht : Distinct tx) (hr : Distinct rx)
    (h1 : s.transmitters = .fromMapping tx) (h2 : s.receivers = .fromMapping rx) {cs : List (List ℤ)}
    (hc : ∀ c ∈ cs, IsCandidate s.objects.length c) (E : Env)
    (f : Scene.PathFun) (q : ℕ) (t r : String × V2 F) (hq : (tx ×ˢ rx)[q]? = some (t, r)) (hC : 0 < cs.length)
    (x : ℕ → Scene.Traced) (E0 : Env)
    (hx0 : (Job.mk s tx rx cs (fun n => keyAt split n key) m v).result E0 (q * cs.length) = .ok (x (q * cs.length))) :
    let j : Job Key := ⟨s, tx, rx, cs, fun n => keyAt split n key, m, v⟩
    let st := GenObj.suspended (Scene.AllPathsState.loop (chainKey split (q * cs.length + 1) key) (((tx ×ˢ rx) ×ˢ cs).drop (q * cs.length + 1)))
    ((∀ i, q * cs.length < i → i ≤ (q + 1) * cs.length → i < j.count → j.result E i = .ok (x i)) →
      s.resultsGroup split (m E) { v with E := E } f (x (q * cs.length)) st =
        .yield (t.1, r.1, pairSum s f t.2 r.2 ((List.range cs.length).map fun k => x (q * cs.length + k)))
          (if (q + 1) * cs.length < j.count then
            ⟨.suspended (.loop (chainKey split ((q + 1) * cs.length + 1) key) (((tx ×ˢ rx) ×ˢ cs).drop ((q + 1) * cs.length + 1))),
              some (x ((q + 1) * cs.length))⟩
          else ⟨.finished, none⟩)) ∧
    ∀ n e, q * cs.length < n → n ≤ (q + 1) * cs.length → n < j.count →
      (∀ i, q * cs.length < i → i < n → j.result E i = .ok (x i)) → j.result E n = .error e →
      s.resultsGroup split (m E) { v with E := E } f (x (q * cs.length)) st = .raise e := by
  intro j st
  have hmul : (q + 1) * cs.length = q * cs.length + cs.length := Nat.succ_mul _ _
  have hN : ((tx ×ˢ rx) ×ˢ cs).length = j.count := plan_length tx rx cs
  have hget0 := product_get (tx ×ˢ rx) cs q 0 (t, r) cs[0] hq (List.getElem?_eq_getElem hC)
  rw [Nat.add_zero] at hget0
  obtain ⟨e1, e2, e3⟩ : (x (q * cs.length)).tx = t.1 ∧ (x (q * cs.length)).rx = r.1 ∧ (x (q * cs.length)).candidate = cs[0] := by
    unfold Job.result at hx0
    simp only [hget0] at hx0
    exact pathResult_names s hx0
  have hmem := List.mem_product.mp (List.mem_of_getElem? hq)
  have hgt : s.transmitters.getItem t.1 = .ok t.2 := by rw [h1]; exact getItem_mem ht hmem.1
  have hgr : s.receivers.getItem r.1 = .ok r.2 := by rw [h2]; exact getItem_mem hr hmem.2
  have hcand := hc cs[0] (List.getElem_mem hC)
  have hunf : s.resultsGroup split (m E) { v with E := E } f (x (q * cs.length)) st =
      match s.groupLoop split (m E) { v with E := E } f t.2 r.2 (t.1, r.1) (0 + weighted s f t.2 r.2 (x (q * cs.length)))
        (chainKey split (q * cs.length + 1) key) (((tx ×ˢ rx) ×ˢ cs).drop (q * cs.length + 1)) with
      | .error err => .raise err
      | .ok (acc, st) => .yield (t.1, r.1, acc) st := by
    simp only [Scene.resultsGroup, e1, e2, e3, hgt, hgr, interacting_eq s _ hcand, bind, Except.bind, st, weighted]
    rfl
  constructor
  · intro hok
    rw [hunf, group_run s split m v key hc E f q t r hq (cs.length - 1) (by omega) x (by
      intro k hk
      apply hok
      · omega
      · omega
      · have := product_get (tx ×ˢ rx) cs q (k + 1) (t, r) cs[k + 1] hq (List.getElem?_eq_getElem (by omega))
        have := (List.getElem?_eq_some_iff.mp this).1
        rw [← hN]; omega)]
    have hidx : q * cs.length + 1 + (cs.length - 1) = (q + 1) * cs.length := by omega
    rw [hidx]
    have hsum : List.foldl (fun a y => a + weighted s f t.2 r.2 y) (0 + weighted s f t.2 r.2 (x (q * cs.length)))
        ((List.range (cs.length - 1)).map fun k => x (q * cs.length + 1 + k)) =
        pairSum s f t.2 r.2 ((List.range cs.length).map fun k => x (q * cs.length + k)) := by
      unfold pairSum
      rw [← sum_eq_foldl]
      obtain ⟨c', hc'⟩ : ∃ c', cs.length = c' + 1 := ⟨cs.length - 1, by omega⟩
      have : (List.range cs.length).map (fun k => x (q * cs.length + k)) =
          x (q * cs.length) :: (List.range (cs.length - 1)).map fun k => x (q * cs.length + 1 + k) := by
        generalize q * cs.length = z
        rw [hc', List.range_succ_eq_map]
        simp only [List.map_cons, List.map_map, Nat.add_zero, Nat.add_sub_cancel]
        congr 1
        apply List.map_congr_left
        intro k _
        show x (z + (k + 1)) = x (z + 1 + k)
        congr 1; omega
      rw [this, List.foldl_cons]
    rw [hsum]
    by_cases hlast : (q + 1) * cs.length < j.count
    · have hlt : (q + 1) * cs.length < ((tx ×ˢ rx) ×ˢ cs).length := by rw [hN]; exact hlast
      have hp1 : q + 1 < (tx ×ˢ rx).length := by
        have h3 := hlt
        rw [List.length_product] at h3
        exact Nat.lt_of_mul_lt_mul_right h3
      obtain ⟨⟨t', r'⟩, hq'⟩ : ∃ p, (tx ×ˢ rx)[q + 1]? = some p := ⟨_, List.getElem?_eq_getElem hp1⟩
      have hget1 := product_get (tx ×ˢ rx) cs (q + 1) 0 (t', r') cs[0] hq' (List.getElem?_eq_getElem hC)
      rw [Nat.add_zero] at hget1
      have hres := hok ((q + 1) * cs.length) (by omega) le_rfl hlast
      have hnames : ((x ((q + 1) * cs.length)).tx, (x ((q + 1) * cs.length)).rx) ≠ (t.1, r.1) := by
        have hres' := hres
        unfold Job.result at hres'
        simp only [j, hget1] at hres'
        obtain ⟨a1, a2, _⟩ := pathResult_names s hres'
        rw [a1, a2]
        intro heq
        have hnd := names_nodup ht hr
        rw [List.nodup_iff_injective_getElem] at hnd
        have hqlt := (List.getElem?_eq_some_iff.mp hq).1
        have := @hnd ⟨q, by simpa using hqlt⟩ ⟨q + 1, by simpa using hp1⟩ (by
          simp only [List.getElem_map]
          have b1 : (tx ×ˢ rx)[q] = (t, r) := (List.getElem?_eq_some_iff.mp hq).2
          have b2 : (tx ×ˢ rx)[q + 1] = (t', r') := (List.getElem?_eq_some_iff.mp hq').2
          rw [b1, b2]
          exact heq.symm)
        simp at this
      rw [List.drop_eq_getElem_cons hlt]
      rw [groupLoop_next s split _ (m E) f t.2 r.2 (t.1, r.1) _ _ _ _ (x ((q + 1) * cs.length)) (by
        rw [← result_eq s split m v key hc E _ _ (List.getElem?_eq_getElem hlt)]; exact hres) hnames]
      simp only [if_pos hlast, ← chainKey_succ']
    · rw [List.drop_eq_nil_of_le (by rw [hN]; omega)]
      simp only [Scene.groupLoop, if_neg hlast]
  · intro n e hn1 hn2 hn3 hok herr
    rw [hunf, group_run s split m v key hc E f q t r hq (n - (q * cs.length + 1)) (by omega) x (by
      intro k hk
      apply hok <;> omega)]
    have hidx : q * cs.length + 1 + (n - (q * cs.length + 1)) = n := by omega
    have hlt : n < ((tx ×ˢ rx) ×ˢ cs).length := by rw [hN]; exact hn3
    rw [hidx, List.drop_eq_getElem_cons hlt, groupLoop_raise s split _ (m E) f t.2 r.2 (t.1, r.1) _ _ _ _ e (by
      rw [← result_eq s split m v key hc E _ _ (List.getElem?_eq_getElem hlt)]; exact herr)]

/-- **C95.** `accumulate_over_paths` works one pair per `next`, but reads one path ahead: with `C > 0` candidates, path number `i` is traced in the
surroundings of call number `(i - 1) / C` (that is, the first path of each pair but the first is traced during the call that returns the
previous pair). If the paths up to the first path of the next pair are traced without exception, call number `q` returns pair number
`q` with the sum of its own `C` paths. The first exception is raised by the call that traces the path: if that path is the first of
its pair, the result of the previous pair is lost. Otherwise the calls after the last pair raise `StopIteration`, as do those that
follow an exception. Without candidates no pair is returned. -/
theorem C95_results (hG : GraphContract G) (tx rx : PyDict (V2 F)) (ht : Distinct tx) (hr : Distinct rx)
    (h1 : s.transmitters = .fromMapping tx) (h2 : s.receivers = .fromMapping rx) (ho : NonNegative o) :
    ∃ (cs : List (List ℤ)) (keys : ℕ → Option Key), s.allPathCandidates G o = .ok cs ∧ (key = none → ∀ n, keys n = none) ∧
      ∀ (m : Env → Scene.PathMethod Key) (v : Scene.ValidOpts) (f : Scene.PathFun) (es : ℕ → Env),
        let j : Job Key := ⟨s, tx, rx, cs, keys, m, v⟩
        let result : ℕ → Except PyErr Scene.Traced := fun i => j.result (es ((i - 1) / cs.length)) i
        let out := (Scene.resultsGen Key).outcome (s.resultsBody G split m o v key f) es
        (cs ≠ [] → ∀ q t r, (tx ×ˢ rx)[q]? = some (t, r) → ∀ x : ℕ → Scene.Traced,
          (∀ i ≤ (q + 1) * cs.length, i < j.count → result i = .ok (x i)) →
          out q = .item (t.1, r.1, F.sum ((List.range cs.length).map fun k => weighted s f t.2 r.2 (x (q * cs.length + k))))) ∧
        (∀ n e, n < j.count → (∀ i < n, ∃ x, result i = .ok x) → result n = .error e →
          out ((n - 1) / cs.length) = .raised e ∧ ∀ k > (n - 1) / cs.length, out k = .stopIteration) ∧
        ((∀ i < j.count, ∃ x, result i = .ok x) → ∀ q, (tx ×ˢ rx).length ≤ q ∨ cs = [] → out q = .stopIteration) := by
  obtain ⟨cs, hcs, hc⟩ := orders_candidates G hG s o ho
  refine ⟨cs, fun n => keyAt split n key, hcs, ?_, ?_⟩
  · rintro rfl n; exact keyAt_none split n
  · intro m v f es j result out
    haveI : Nonempty Scene.Traced := ⟨⟨"", "", .b false, ⟨[], 0⟩, []⟩⟩
    have hN : ((tx ×ˢ rx) ×ˢ cs).length = j.count := plan_length tx rx cs
    have hN' : j.count = (tx ×ˢ rx).length * cs.length := by rw [← hN, List.length_product]
    let body := s.resultsBody G split m o v key f
    let g := Scene.resultsGen Key
    let loopAt := fun n => GenObj.suspended (Scene.AllPathsState.loop (chainKey split n key) (((tx ×ˢ rx) ×ˢ cs).drop n))
    -- the first call pulls the first path
    have hfirst : ∀ E, (GenObj.suspended Scene.AllPathsState.start).next (s.allPathsBody G split m o v key E) =
        (loopAt 0).next (s.allPathsBody G split m o v key E) := by
      intro E
      simp only [loopAt, GenObj.next, (start_eq s G split m o v key ht hr h1 h2 hcs E).1, chainKey, List.drop_zero]
    have hbody0 : ∀ E, body E ⟨.suspended .start, none⟩ =
        if 0 < j.count then
          match j.result E 0 with
          | .error e => .raise e
          | .ok x => s.resultsGroup split (m E) { v with E := E } f x (loopAt 1)
        else .ret := by
      intro E
      simp only [body, Scene.resultsBody, hfirst E]
      by_cases h0 : 0 < j.count
      · have hlt : 0 < ((tx ×ˢ rx) ×ˢ cs).length := by rw [hN]; exact h0
        rw [if_pos h0, result_eq s split m v key hc E 0 _ (List.getElem?_eq_getElem hlt)]
        have hd : ((tx ×ˢ rx) ×ˢ cs).drop 0 = ((tx ×ˢ rx) ×ˢ cs)[0] :: ((tx ×ˢ rx) ×ˢ cs).drop 1 := by
          rw [List.drop_eq_getElem_cons hlt]
        simp only [loopAt, GenObj.next, hd, Scene.allPathsBody, Scene.allPathsLoop]
        cases s.traceOne split (m E) { v with E := E } (chainKey split 0 key) ((tx ×ˢ rx) ×ˢ cs)[0] with
        | error e => rfl
        | ok x => rfl
      · rw [if_neg h0]
        have hnil : (tx ×ˢ rx) ×ˢ cs = [] := by
          apply List.eq_nil_of_length_eq_zero; omega
        simp only [loopAt, hnil, List.drop_nil, GenObj.next, Scene.allPathsBody, Scene.allPathsLoop]
    -- the state after `q` calls
    have hdivC : 0 < cs.length → ∀ q i, q * cs.length < i → i ≤ (q + 1) * cs.length → (i - 1) / cs.length = q := by
      intro hC q i h3 h4
      rw [Nat.div_eq_iff hC]
      rw [Nat.succ_mul] at h4
      constructor
      · have := Nat.mul_comm q cs.length; omega
      · have := Nat.mul_comm q cs.length; omega
    have hstate : 0 < cs.length → ∀ q, ∀ x : ℕ → Scene.Traced, q ≤ (tx ×ˢ rx).length →
        (∀ i ≤ q * cs.length, i < j.count → result i = .ok (x i)) →
        g.after body es q = if q = 0 then g else
          .suspended (if q * cs.length < j.count then ⟨loopAt (q * cs.length + 1), some (x (q * cs.length))⟩ else ⟨.finished, none⟩) := by
      intro hC q
      induction q with
      | zero => intro x _ _; rfl
      | succ q ih =>
        intro x hq hok
        have hq' : q < (tx ×ˢ rx).length := hq
        have hmul : (q + 1) * cs.length = q * cs.length + cs.length := Nat.succ_mul _ _
        have hqc : q * cs.length < j.count := by
          rw [hN']; exact Nat.mul_lt_mul_of_pos_right hq' hC
        obtain ⟨⟨t, r⟩, htr⟩ : ∃ p, (tx ×ˢ rx)[q]? = some p := ⟨_, List.getElem?_eq_getElem hq'⟩
        have hstep := (group_step s split m v key ht hr h1 h2 hc (es q) f q t r htr hC x _ (hok (q * cs.length) (by omega) hqc)).1 (by
          intro i a1 a2 a3
          have := hok i a2 a3
          simp only [result] at this
          rw [hdivC hC q i a1 a2] at this
          exact this)
        have hbq : ∀ st, g.after body es q = .suspended st → body (es q) st =
            s.resultsGroup split (m (es q)) { v with E := es q } f (x (q * cs.length)) (loopAt (q * cs.length + 1)) := by
          intro st hst
          rw [ih x (by omega) (fun i hi => hok i (by omega))] at hst
          by_cases h0 : q = 0
          · subst h0
            rw [if_pos rfl] at hst
            simp only [g, Scene.resultsGen, GenObj.suspended.injEq] at hst
            subst hst
            rw [hbody0, if_pos (by simpa using hqc)]
            have := hok 0 (by omega) (by simpa using hqc)
            simp only [result, Nat.zero_sub, Nat.zero_div] at this
            rw [this]
            simp
          · rw [if_neg h0, if_pos hqc] at hst
            simp only [GenObj.suspended.injEq] at hst
            subst hst
            rfl
        obtain ⟨st, hst⟩ : ∃ st, g.after body es q = .suspended st := by
          rw [ih x (by omega) (fun i hi => hok i (by omega))]
          by_cases h0 : q = 0
          · rw [if_pos h0]; exact ⟨_, rfl⟩
          · rw [if_neg h0]; exact ⟨_, rfl⟩
        show ((g.after body es q).next (body (es q))).2 = _
        rw [hst]
        simp only [GenObj.next, hbq st hst]
        simp only [loopAt, hstep]
        rw [if_neg (show ¬ (q + 1 = 0) by omega)]
    have hbq : 0 < cs.length → ∀ q, q < (tx ×ˢ rx).length → ∀ x : ℕ → Scene.Traced,
        (∀ i ≤ q * cs.length, i < j.count → result i = .ok (x i)) →
        ∃ st, g.after body es q = .suspended st ∧ body (es q) st =
          s.resultsGroup split (m (es q)) { v with E := es q } f (x (q * cs.length)) (loopAt (q * cs.length + 1)) := by
      intro hC q hq x hok
      have hqc : q * cs.length < j.count := by
        rw [hN']; exact Nat.mul_lt_mul_of_pos_right hq hC
      have hst := hstate hC q x (by omega) hok
      by_cases h0 : q = 0
      · subst h0
        rw [if_pos rfl] at hst
        refine ⟨_, hst, ?_⟩
        rw [hbody0, if_pos (by simpa using hqc)]
        have := hok 0 (by omega) (by simpa using hqc)
        simp only [result, Nat.zero_sub, Nat.zero_div] at this
        rw [this]
        simp
      · rw [if_neg h0, if_pos hqc] at hst
        exact ⟨_, hst, rfl⟩
    have hpos : 0 < j.count → 0 < cs.length := by
      intro h
      rw [hN'] at h
      exact Nat.pos_of_mul_pos_left h
    refine ⟨?_, ?_, ?_⟩
    · intro hne q t r htr x hok
      have hC : 0 < cs.length := List.length_pos_iff.mpr hne
      have hq : q < (tx ×ˢ rx).length := (List.getElem?_eq_some_iff.mp htr).1
      have hmul : (q + 1) * cs.length = q * cs.length + cs.length := Nat.succ_mul _ _
      have hqc : q * cs.length < j.count := by
        rw [hN']; exact Nat.mul_lt_mul_of_pos_right hq hC
      obtain ⟨st, hst, hb⟩ := hbq hC q hq x (fun i hi => hok i (by omega))
      have hstep := (group_step s split m v key ht hr h1 h2 hc (es q) f q t r htr hC x _ (hok (q * cs.length) (by omega) hqc)).1 (by
          intro i a1 a2 a3
          have := hok i a2 a3
          simp only [result] at this
          rw [hdivC hC q i a1 a2] at this
          exact this)
      show ((g.after body es q).next (body (es q))).1 = _
      rw [hst]
      simp only [GenObj.next, hb, loopAt, hstep, pairSum, List.map_map, Function.comp_def]
    · intro n e hn hok herr
      have hC : 0 < cs.length := hpos (by omega)
      have hraise : out ((n - 1) / cs.length) = .raised e := by
        rcases Nat.eq_zero_or_pos n with h0 | h0
        · subst h0
          simp only [result, Nat.zero_sub, Nat.zero_div] at herr ⊢
          show ((g.after body es 0).next (body (es 0))).1 = _
          simp only [GenObj.after, g, Scene.resultsGen, GenObj.next, hbody0, if_pos hn, herr]
        · set q := (n - 1) / cs.length with hqdef
          have hmul : (q + 1) * cs.length = q * cs.length + cs.length := Nat.succ_mul _ _
          have hmul' : cs.length * q = q * cs.length := Nat.mul_comm _ _
          have hdm := Nat.div_add_mod (n - 1) cs.length
          have hml := Nat.mod_lt (n - 1) hC
          rw [← hqdef] at hdm
          have b1 : q * cs.length < n := by omega
          have b2 : n ≤ (q + 1) * cs.length := by omega
          have hq : q < (tx ×ˢ rx).length := by
            by_contra hcon
            have : (tx ×ˢ rx).length * cs.length ≤ q * cs.length := Nat.mul_le_mul_right _ (by omega)
            omega
          obtain ⟨⟨t, r⟩, htr⟩ : ∃ p, (tx ×ˢ rx)[q]? = some p := ⟨_, List.getElem?_eq_getElem hq⟩
          choose! x hx using hok
          obtain ⟨st, hst, hb⟩ := hbq hC q hq x (fun i hi _ => hx i (by omega))
          have hstep := (group_step s split m v key ht hr h1 h2 hc (es q) f q t r htr hC x _ (hx (q * cs.length) b1)).2 n e b1 b2 hn (by
            intro i a1 a2
            have := hx i a2
            simp only [result] at this
            rw [hdivC hC q i a1 (by omega)] at this
            exact this) (by simpa only [result] using herr)
          show ((g.after body es q).next (body (es q))).1 = _
          rw [hst]
          simp only [GenObj.next, hb, loopAt, hstep]
      exact ⟨hraise, fun k hk => outcome_done _ _ _ _ (by intro a; rw [show GenObj.outcome _ _ _ _ = _ from hraise]; simp) k hk⟩
    · intro hok q hq
      by_cases hC : 0 < cs.length
      · have hq : (tx ×ˢ rx).length ≤ q := by
          rcases hq with h | h
          · exact h
          · rw [h] at hC; simp at hC
        have hlast : out (tx ×ˢ rx).length = .stopIteration := by
          choose! x hx using hok
          have hst := hstate hC (tx ×ˢ rx).length x le_rfl (fun i _ hi => hx i hi)
          show ((g.after body es _).next (body (es _))).1 = _
          rw [hst]
          by_cases h0 : (tx ×ˢ rx).length = 0
          · rw [if_pos h0]
            simp only [g, Scene.resultsGen, GenObj.next, hbody0]
            rw [if_neg (by rw [hN', h0]; simp)]
          · rw [if_neg h0, if_neg (by rw [hN']; omega)]
            rfl
        rcases Nat.eq_or_lt_of_le hq with h | h
        · rw [← h]; exact hlast
        · exact outcome_done _ _ _ _ (by intro a; rw [show GenObj.outcome _ _ _ _ = _ from hlast]; simp) q h
      · have h0 : out 0 = .stopIteration := by
          show ((g.after body es 0).next (body (es 0))).1 = _
          simp only [GenObj.after, g, Scene.resultsGen, GenObj.next, hbody0]
          rw [if_neg (fun h => hC (hpos h))]
        rcases Nat.eq_zero_or_pos q with h | h
        · rw [h]; exact h0
        · exact outcome_done _ _ _ _ (by intro a; rw [show GenObj.outcome _ _ _ _ = _ from h0]; simp) q h

end

/-! ## Non-vacuity -/

/-- An empty scene with one transmitter and two receivers. -/
noncomputable def twoReceivers : Scene := ⟨.fromMapping [("tx", ⟨0, 0⟩)], .fromMapping [("a", ⟨F.fin 1, 0⟩), ("b", ⟨F.fin 2, 0⟩)], []⟩

/-- A path class that cannot reach the second receiver. -/
noncomputable def onlyFirst : Scene.PathMethod Unit :=
  ⟨fun _ t _ r => if r = ⟨F.fin 2, 0⟩ then .error .valueError else .ok ⟨[t, r], 0⟩⟩

/-- Hypotheses met: the first path is traced, the second raises. `all_paths` delivers the first path and raises at the second call; but
`accumulate_over_paths` raises at its first call, so that the result of the first receiver is lost. -/
example (f : Scene.PathFun) (kw : ActKw) :
    let v : Scene.ValidOpts := { E := ⟨false, 0⟩, tol := 0, patch := 0, approx := some false, kw := kw }
    let es : ℕ → Env := fun _ => ⟨true, 0⟩
    (∃ x, (Scene.allPathsGen Unit).outcome (twoReceivers.allPathsBody refLib (fun _ _ => []) (fun _ => onlyFirst) {} v none) es 0 = .item x) ∧
    (Scene.allPathsGen Unit).outcome (twoReceivers.allPathsBody refLib (fun _ _ => []) (fun _ => onlyFirst) {} v none) es 1 =
      .raised .valueError ∧
    (Scene.resultsGen Unit).outcome (twoReceivers.resultsBody refLib (fun _ _ => []) (fun _ => onlyFirst) {} v none f) es 0 =
      .raised .valueError := by
  intro v es
  have ht : Distinct [("tx", (⟨0, 0⟩ : V2 F))] := by simp [Distinct]
  have hr : Distinct [("a", (⟨F.fin 1, 0⟩ : V2 F)), ("b", ⟨F.fin 2, 0⟩)] := by simp [Distinct]
  obtain ⟨cs, keys, hcs, hk, h⟩ := C95_all_paths (Key := Unit) twoReceivers refLib (fun _ _ => []) {} none refLib_contract _ _ ht hr rfl rfl
    (by simp [NonNegative])
  obtain ⟨cs', keys', hcs', hk', h'⟩ := C95_results (Key := Unit) twoReceivers refLib (fun _ _ => []) {} none refLib_contract _ _ ht hr rfl rfl
    (by simp [NonNegative])
  have hc0 : twoReceivers.allPathCandidates refLib {} = .ok [[]] := rfl
  rw [hc0] at hcs hcs'
  cases hcs; cases hcs'
  have hne : (⟨F.fin 1, 0⟩ : V2 F) ≠ ⟨F.fin 2, 0⟩ := by
    intro h
    have h := (V2.mk.inj h).1
    simp at h
  have hA : ∀ (k : ℕ → Option Unit), ∃ x, (Job.mk twoReceivers [("tx", ⟨0, 0⟩)] [("a", ⟨F.fin 1, 0⟩), ("b", ⟨F.fin 2, 0⟩)] [[]] k (fun _ => onlyFirst) v).result ⟨true, 0⟩ 0 = .ok x := by
    intro k
    have : ∃ x, pathResult twoReceivers onlyFirst { v with E := ⟨true, 0⟩ } (k 0) ("tx", ⟨0, 0⟩) ("a", ⟨F.fin 1, 0⟩) [] = .ok x := by
      unfold pathResult
      simp only [onlyFirst, if_neg hne]
      exact ⟨_, rfl⟩
    exact this
  have hB : ∀ (k : ℕ → Option Unit), (Job.mk twoReceivers [("tx", ⟨0, 0⟩)] [("a", ⟨F.fin 1, 0⟩), ("b", ⟨F.fin 2, 0⟩)] [[]] k (fun _ => onlyFirst) v).result ⟨true, 0⟩ 1 = .error .valueError := by
    intro k
    unfold Job.result
    show pathResult _ _ _ _ ("tx", ⟨0, 0⟩) ("b", ⟨F.fin 2, 0⟩) [] = _
    unfold pathResult
    simp only [onlyFirst, if_true]
  refine ⟨?_, ?_, ?_⟩
  · obtain ⟨x, hx⟩ := hA keys
    refine ⟨x, ?_⟩
    rw [((h (fun _ => onlyFirst) v es 0).1 (by intro i hi; omega)).1 (show _ < (2 : ℕ) by omega)]
    show seen (Job.result _ ⟨true, 0⟩ 0) = _
    rw [hx]; rfl
  · rw [((h (fun _ => onlyFirst) v es 1).1 (by
      intro i hi _
      obtain rfl : i = 0 := by omega
      exact hA keys)).1 (show _ < (2 : ℕ) by omega)]
    show seen (Job.result _ ⟨true, 0⟩ 1) = _
    rw [hB]; rfl
  · exact ((h' (fun _ => onlyFirst) v f es).2.1 1 .valueError (show _ < (2 : ℕ) by omega) (by
      intro i hi
      obtain rfl : i = 0 := by omega
      exact hA keys') (hB keys')).1

/-- The hypotheses of `C95_eager` hold for the default path class in every scene of walls, at any sequence of settings. -/
example (G : GraphLib) (hG : GraphContract G) (s : Scene) (hs : IsScene s) (hw : ∀ o ∈ s.objects, ∃ w, o = .wall w) (v : Scene.ValidOpts)
    (es : ℕ → Env) : ∃ ts : ℕ → List Scene.Traced, ∀ n,
      (Scene.allPathsGen Unit).outcome (s.allPathsBody G (fun _ _ => []) (fun _ => imageMethod Unit) {} v none) es n = seenAt (ts n) n := by
  choose ts hts using fun n => C56_image_total G hG Unit s hs hw {} (by simp [NonNegative]) (fun _ _ => []) none { v with E := es n }
  exact ⟨ts, C95_eager s G _ _ {} v none es ts hts⟩

/-- The hypotheses of `C95_valid` hold in the empty scene with two receivers. -/
example (kw : ActKw) : ∃ p : ℕ → ℕ, p 0 = 0 ∧ p 1 ≤ 2 := by
  let v : Scene.ValidOpts := { E := ⟨false, 0⟩, tol := 1, patch := 0, approx := some false, kw := kw }
  have ht : Distinct [("tx", (⟨0, 0⟩ : V2 F))] := by simp [Distinct]
  have hr : Distinct [("a", (⟨F.fin 1, 0⟩ : V2 F)), ("b", ⟨F.fin 2, 0⟩)] := by simp [Distinct]
  obtain ⟨cs, keys, hcs, hk, h⟩ := C95_valid (Key := Unit) twoReceivers refLib (fun _ _ => []) {} none refLib_contract _ _ ht hr rfl rfl
    (by simp [NonNegative])
  have hc0 : twoReceivers.allPathCandidates refLib {} = .ok [[]] := rfl
  rw [hc0] at hcs
  cases hcs
  obtain ⟨p, hp0, hp⟩ := h (fun _ => imageMethod Unit) v (fun _ => ⟨true, 0⟩) (by
    intro i n hi
    have hi : i < 2 := hi
    match i, hi with
    | 0, _ => exact ⟨_, rfl⟩
    | 1, _ => exact ⟨_, rfl⟩)
  refine ⟨p, hp0, ?_⟩
  rcases hp 0 with ⟨q, x, h1, h2, h3, _⟩ | ⟨h1, _⟩
  · have h2 : q < 2 := h2
    simp only [Nat.zero_add] at h3; omega
  · exact h1.le

end DiffeRT2d.Props
