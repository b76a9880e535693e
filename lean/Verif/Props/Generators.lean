import Verif.Lemmas.Generators
import Verif.Props.Candidates

/-! # Property C95: generators compute one path at a time -/

namespace DiffeRT2d.Props
open Spec Classical

section
variable {Key : Type} (s : Scene) (G : GraphLib) (split : Key → ℕ → List Key) (m : Env → Scene.PathMethod Key) (o : Scene.Orders)
  (v : Scene.ValidOpts) (key : Option Key)

theorem start_eq {tx rx : PyDict (V2 F)} (ht : Distinct tx) (hr : Distinct rx) (h1 : s.transmitters = .fromMapping tx)
    (h2 : s.receivers = .fromMapping rx) {cs : List (List ℤ)} (hcs : s.allPathCandidates G o = .ok cs) (E : Env) :
    s.allPathsBody G split m o v key E .start = s.allPathsBody G split m o v key E (.loop key ((tx ×ˢ rx) ×ˢ cs)) ∧
    s.allValidBody G split m o v key E .start = s.allValidBody G split m o v key E (.loop key ((tx ×ˢ rx) ×ˢ cs)) := by
  have hp : s.allTransmitterReceiverPairs = .ok (tx ×ˢ rx) := by
    unfold Scene.allTransmitterReceiverPairs
    rw [h1, h2, items_eq ht, items_eq hr]; rfl
  constructor
  · simp only [Scene.allPathsBody, hcs, hp]; rfl
  · simp only [Scene.allValidBody, hcs, hp]; rfl

theorem plan_length (tx rx : PyDict (V2 F)) (cs : List (List ℤ)) :
    ((tx ×ˢ rx) ×ˢ cs).length = tx.length * rx.length * cs.length := by simp [List.length_product]

theorem result_eq {tx rx : PyDict (V2 F)} {cs : List (List ℤ)} (hc : ∀ c ∈ cs, IsCandidate s.objects.length c) (E : Env) (n : ℕ)
    (e) (he : ((tx ×ˢ rx) ×ˢ cs)[n]? = some e) :
    (Job.mk s tx rx cs (fun n => keyAt split n key) m v).result E n =
      s.traceOne split (m E) { v with E := E } (chainKey split n key) e := by
  obtain ⟨⟨t, r⟩, c⟩ := e
  have hcm : c ∈ cs := (List.mem_product.mp (List.mem_of_getElem? he)).2
  rw [traceOne_result s split _ _ _ t r c (hc c hcm)]
  unfold Job.result
  simp only [he]
  rfl

/-- **C95.** `all_paths` works one path per `next`: as long as no path has raised, the call of `next` number `n` traces path number `n` in
the surroundings of that call and returns it or raises its exception; once there is no path left it raises `StopIteration`. After an
exception, the generator is finished: the paths that follow are lost, those that came before were delivered. -/
theorem C95_all_paths (hG : GraphContract G) (tx rx : PyDict (V2 F)) (ht : Distinct tx) (hr : Distinct rx)
    (h1 : s.transmitters = .fromMapping tx) (h2 : s.receivers = .fromMapping rx) (ho : NonNegative o) :
    ∃ (cs : List (List ℤ)) (keys : ℕ → Option Key), s.allPathCandidates G o = .ok cs ∧ (key = none → ∀ n, keys n = none) ∧
      ∀ (m : Env → Scene.PathMethod Key) (v : Scene.ValidOpts) (es : ℕ → Env) (n : ℕ),
        let j : Job Key := ⟨s, tx, rx, cs, keys, m, v⟩
        let out := (Scene.allPathsGen Key).outcome (s.allPathsBody G split m o v key) es
        ((∀ i < n, i < j.count → ∃ x, j.result (es i) i = .ok x) →
          (n < j.count → out n = seen (j.result (es n) n)) ∧ (j.count ≤ n → out n = .stopIteration)) ∧
        ∀ e, out n = .raised e → ∀ k > n, out k = .stopIteration := by
  obtain ⟨cs, hcs, hc⟩ := orders_candidates G hG s o ho
  refine ⟨cs, fun n => keyAt split n key, hcs, ?_, ?_⟩
  · rintro rfl n; exact keyAt_none split n
  · intro m v es n
    refine ⟨?_, fun e he k hk => outcome_done _ _ _ n (by intro a; rw [he]; simp) k hk⟩
    intro hok
    have hout : (Scene.allPathsGen Key).outcome (s.allPathsBody G split m o v key) es n =
        (GenObj.suspended (Scene.AllPathsState.loop key ((tx ×ˢ rx) ×ˢ cs))).outcome (s.allPathsBody G split m o v key) es n :=
      outcome_congr _ _ _ (fun E => (start_eq s G split m o v key ht hr h1 h2 hcs E).1) es n
    have hrun := loop_outcome s G split m o v key ((tx ×ˢ rx) ×ˢ cs) key es n (by
      intro i e hi he
      obtain ⟨x, hx⟩ := hok i hi (by
        have := (List.getElem?_eq_some_iff.mp he).1
        rwa [plan_length] at this)
      rw [result_eq s split m v key hc (es i) i e he] at hx
      exact ⟨x, hx⟩)
    rw [hout, hrun]
    constructor
    · intro hn
      have hlt : n < ((tx ×ˢ rx) ×ˢ cs).length := by rw [plan_length]; exact hn
      rw [result_eq s split m v key hc (es n) n _ (List.getElem?_eq_getElem hlt), List.getElem?_eq_getElem hlt]
    · intro hn
      rw [List.getElem?_eq_none (by rw [plan_length]; exact hn)]

/-- **C95.** The `n`-th path is the `n`-th path of the list that `all_paths` gives when the surroundings are, from beginning to end, those of
the call number `n` of `next`; in particular, in constant surroundings, successive calls of `next` give the elements of that list in order,
then `StopIteration`. -/
theorem C95_eager (es : ℕ → Env) (ts : ℕ → List Scene.Traced)
    (h : ∀ n, s.allPaths G split (m (es n)) o { v with E := es n } key = .ok (ts n)) (n : ℕ) :
    (Scene.allPathsGen Key).outcome (s.allPathsBody G split m o v key) es n = seenAt (ts n) n := by
  obtain ⟨cs, pairs, hcs, hp, h0⟩ := allPaths_start s G split o key _ _ _ (h n)
  have hstart : ∀ E, s.allPathsBody G split m o v key E .start =
      s.allPathsBody G split m o v key E (.loop key (pairs.flatMap fun pair => cs.map fun c => (pair, c))) := by
    intro E; simp only [Scene.allPathsBody, hcs, hp]
  have hall : ∀ i, s.tracePaths split (m (es i)) { v with E := es i } key (pairs.flatMap fun pair => cs.map fun c => (pair, c)) = .ok (ts i) := by
    intro i
    obtain ⟨cs', pairs', hcs', hp', h0'⟩ := allPaths_start s G split o key _ _ _ (h i)
    rw [hcs] at hcs'; rw [hp] at hp'
    cases hcs'; cases hp'
    exact h0'
  have hget := fun i => tracePaths_get s split { v with E := es i } (m (es i)) _ key _ (hall i)
  show (GenObj.suspended Scene.AllPathsState.start).outcome _ es n = _
  rw [outcome_congr _ _ _ hstart, loop_outcome s G split m o v key _ key es n
    (fun i e _ he => (((hget i).2 i e he).imp fun x hx => hx.2))]
  unfold seenAt
  cases hn : (pairs.flatMap fun pair => cs.map fun c => (pair, c))[n]? with
  | none =>
    rw [List.getElem?_eq_none (by rw [(hget n).1]; exact List.getElem?_eq_none_iff.mp hn)]
  | some e =>
    obtain ⟨x, hx1, hx2⟩ := (hget n).2 n e hn
    rw [hx1]
    simp only [hx2, seen]

/-- **C95.** In constant surroundings, successive calls of `next` on `all_valid_paths` give the elements of the list of all valid paths in
order, then `StopIteration`. -/
theorem C95_valid_eager (E : Env) (ps : List Scene.ValidPath)
    (h : s.allValidPaths G split (m E) o { v with E := E } key = .ok ps) (n : ℕ) :
    (Scene.allPathsGen Key).outcome (s.allValidBody G split m o v key) (fun _ => E) n = seenAt ps n := by
  unfold Scene.allValidPaths at h
  cases hts : s.allPaths G split (m E) o { v with E := E } key with
  | error err => rw [hts] at h; cases h
  | ok ts =>
    rw [hts] at h
    obtain ⟨cs, pairs, hcs, hp, h0⟩ := allPaths_start s G split o key _ _ _ hts
    have hstart : ∀ E, s.allValidBody G split m o v key E .start =
        s.allValidBody G split m o v key E (.loop key (pairs.flatMap fun pair => cs.map fun c => (pair, c))) := by
      intro E; simp only [Scene.allValidBody, hcs, hp]
    show (GenObj.suspended Scene.AllPathsState.start).outcome _ _ n = _
    rw [outcome_congr _ _ _ hstart]
    exact valid_eager s G split m o v key E _ key ts ps h0 h n

/-- The number of paths examined so far. -/
def examined (N : ℕ) : GenObj (Scene.AllPathsState Key) → ℕ
  | .finished => N
  | .suspended .start => 0
  | .suspended (.loop _ todo) => N - todo.length

/-- **C95.** `all_valid_paths` resumes where it stopped: there are positions `0 = p 0, p 1, ...` such that call number `n` of `next` examines the
paths from position `p n` on, all in the surroundings of that call, up to the first one that is accepted there, which it returns (the next
call then starts after it), or up to the end if there is none, and raises `StopIteration`. -/
theorem C95_valid (hG : GraphContract G) (tx rx : PyDict (V2 F)) (ht : Distinct tx) (hr : Distinct rx)
    (h1 : s.transmitters = .fromMapping tx) (h2 : s.receivers = .fromMapping rx) (ho : NonNegative o) :
    ∃ (cs : List (List ℤ)) (keys : ℕ → Option Key), s.allPathCandidates G o = .ok cs ∧ (key = none → ∀ n, keys n = none) ∧
      ∀ (m : Env → Scene.PathMethod Key) (v : Scene.ValidOpts) (es : ℕ → Env),
        let j : Job Key := ⟨s, tx, rx, cs, keys, m, v⟩
        let out := (Scene.allPathsGen Key).outcome (s.allValidBody G split m o v key) es
        (∀ i n, i < j.count → ∃ x, j.result (es n) i = .ok x) →
        ∃ p : ℕ → ℕ, p 0 = 0 ∧ ∀ n,
          (∃ q x, p n ≤ q ∧ q < j.count ∧ p (n + 1) = q + 1 ∧ j.result (es n) q = .ok x ∧ Accepted (es n) v.approx x.valid ∧
            out n = .item (x.tx, x.rx, x.path, x.candidate) ∧
            ∀ i, p n ≤ i → i < q → ∃ y, j.result (es n) i = .ok y ∧ ¬ Accepted (es n) v.approx y.valid) ∨
          (p (n + 1) = j.count ∧ out n = .stopIteration ∧
            ∀ i, p n ≤ i → i < j.count → ∃ y, j.result (es n) i = .ok y ∧ ¬ Accepted (es n) v.approx y.valid) := by
  obtain ⟨cs, hcs, hc⟩ := orders_candidates G hG s o ho
  refine ⟨cs, fun n => keyAt split n key, hcs, ?_, ?_⟩
  · rintro rfl n; exact keyAt_none split n
  · intro m v es j out hok
    have hN : ((tx ×ˢ rx) ×ˢ cs).length = j.count := plan_length tx rx cs
    set todo := (tx ×ˢ rx) ×ˢ cs with htodo
    have hres : ∀ E (n : ℕ) e, todo[n]? = some e → j.result E n = s.traceOne split (m E) { v with E := E } (chainKey split n key) e :=
      fun E n e he => result_eq s split m v key hc E n e he
    have hit : ∀ n (i : ℕ) e, todo[i]? = some e → ∃ x, s.traceOne split (m (es n)) { v with E := es n } (chainKey split i key) e = .ok x ∧
        isTrue (es n) v.approx x.valid = .ok (decide (Accepted (es n) v.approx x.valid)) := by
      intro n i e he
      have hi : i < j.count := by rw [← hN]; exact (List.getElem?_eq_some_iff.mp he).1
      obtain ⟨x, hx⟩ := hok i n hi
      refine ⟨x, by rw [← hres _ _ _ he]; exact hx, isTrue_accepted ?_⟩
      intro hh
      unfold Job.result at hx
      rw [he] at hx
      simp only at hx
      unfold pathResult at hx
      split at hx
      · cases hx
      · split at hx
        · cases hx
        · rename_i hval
          cases hx
          exact isValid_hard_bool _ hh _ _ _ _ _ _ _ hval
    -- the state after each call
    let g := (GenObj.suspended (Scene.AllPathsState.loop key todo))
    let body := s.allValidBody G split m o v key
    have hstart : ∀ E, body E .start = body E (.loop key todo) := fun E => (start_eq s G split m o v key ht hr h1 h2 hcs E).2
    have hout : ∀ n, out n = g.outcome body es n := fun n => outcome_congr _ _ _ hstart es n
    have hstep : ∀ n p, p ≤ j.count → g.after body es n = .suspended (.loop (chainKey split p key) (todo.drop p)) →
        (∃ q x, p ≤ q ∧ q < j.count ∧ j.result (es n) q = .ok x ∧ Accepted (es n) v.approx x.valid ∧
            g.outcome body es n = .item (x.tx, x.rx, x.path, x.candidate) ∧
            g.after body es (n + 1) = .suspended (.loop (chainKey split (q + 1) key) (todo.drop (q + 1))) ∧
            ∀ i, p ≤ i → i < q → ∃ y, j.result (es n) i = .ok y ∧ ¬ Accepted (es n) v.approx y.valid) ∨
          (g.outcome body es n = .stopIteration ∧ g.after body es (n + 1) = .finished ∧
            ∀ i, p ≤ i → i < j.count → ∃ y, j.result (es n) i = .ok y ∧ ¬ Accepted (es n) v.approx y.valid) := by
      intro n p hp hg
      have hck : ∀ i, chainKey split i (chainKey split p key) = chainKey split (p + i) key := by
        intro i
        induction i with
        | zero => rfl
        | succ i ih => rw [chainKey_succ', ih, ← chainKey_succ']; rfl
      have hdrop : ∀ (i : ℕ) e, (todo.drop p)[i]? = some e → todo[p + i]? = some e := by
        intro i e he; rwa [List.getElem?_drop] at he
      have hnot : ∀ (i : ℕ) e, todo[i]? = some e → (∃ y, s.traceOne split (m (es n)) { v with E := es n } (chainKey split i key) e = .ok y ∧
          isTrue (es n) v.approx y.valid = .ok false) → ∃ y, j.result (es n) i = .ok y ∧ ¬ Accepted (es n) v.approx y.valid := by
        rintro i e he ⟨y, hy1, hy2⟩
        refine ⟨y, by rw [hres _ _ _ he]; exact hy1, ?_⟩
        obtain ⟨x, hx1, hx2⟩ := hit n i e he
        rw [hx1] at hy1; cases hy1
        rw [hx2] at hy2
        simpa using hy2
      rcases validLoop_spec s split { v with E := es n } (m (es n)) (todo.drop p) (chainKey split p key) (by
        intro i e he
        obtain ⟨x, hx1, hx2⟩ := hit n (p + i) e (hdrop i e he)
        exact ⟨x, _, by rw [hck]; exact hx1, hx2⟩) with ⟨q, e, x, g1, g2, g3, g4, g5⟩ | ⟨g4, g5⟩
      · left
        have hb : body (es n) (.loop (chainKey split p key) (todo.drop p)) = _ := g5
        rw [hck] at g2 hb
        have hq := hdrop q e g1
        have hlt : p + q < j.count := by rw [← hN]; exact (List.getElem?_eq_some_iff.mp hq).1
        refine ⟨p + q, x, by omega, hlt, by rw [hres _ _ _ hq]; exact g2, ?_, ?_, ?_, ?_⟩
        · obtain ⟨x', hx1, hx2⟩ := hit n (p + q) e hq
          rw [hx1] at g2; cases g2
          rw [hx2] at g3
          simpa using g3
        · unfold GenObj.outcome; rw [hg]; simp only [GenObj.next, hb]
        · show ((g.after body es n).next _).2 = _
          rw [hg]; simp only [GenObj.next, hb, List.drop_drop]
          rfl
        · intro i hi1 hi2
          have hil : i < todo.length := by rw [hN]; omega
          have hie : todo[i]? = some todo[i] := List.getElem?_eq_getElem hil
          refine hnot i _ hie ?_
          obtain ⟨y, hy1, hy2⟩ := g4 (i - p) todo[i] (by omega) (by rw [List.getElem?_drop, Nat.add_sub_cancel' hi1]; exact hie)
          rw [hck, Nat.add_sub_cancel' hi1] at hy1
          exact ⟨y, hy1, hy2⟩
      · right
        have hb : body (es n) (.loop (chainKey split p key) (todo.drop p)) = _ := g5
        refine ⟨by unfold GenObj.outcome; rw [hg]; simp only [GenObj.next, hb], ?_, ?_⟩
        · show ((g.after body es n).next _).2 = _
          rw [hg]; simp only [GenObj.next, hb]
        · intro i hi1 hi2
          have hil : i < todo.length := by rw [hN]; omega
          have hie : todo[i]? = some todo[i] := List.getElem?_eq_getElem hil
          refine hnot i _ hie ?_
          obtain ⟨y, hy1, hy2⟩ := g4 (i - p) todo[i] (by rw [List.getElem?_drop, Nat.add_sub_cancel' hi1]; exact hie)
          rw [hck, Nat.add_sub_cancel' hi1] at hy1
          exact ⟨y, hy1, hy2⟩
    have hinv : ∀ n, g.after body es n = .finished ∨ ∃ p ≤ j.count, g.after body es n = .suspended (.loop (chainKey split p key) (todo.drop p)) := by
      intro n
      induction n with
      | zero => exact .inr ⟨0, by omega, rfl⟩
      | succ n ih =>
        rcases ih with h | ⟨p, hp, hg⟩
        · left; show ((g.after body es n).next _).2 = _; rw [h]; rfl
        · rcases hstep n p hp hg with ⟨q, x, _, hq, _, _, _, ha, _⟩ | ⟨_, ha, _⟩
          · exact .inr ⟨q + 1, hq, ha⟩
          · exact .inl ha
    have hex : ∀ p ≤ j.count, examined j.count (GenObj.suspended (Scene.AllPathsState.loop (chainKey split p key) (todo.drop p))) = p := by
      intro p hp
      simp only [examined, List.length_drop, hN]; omega
    refine ⟨fun n => examined j.count (g.after body es n), hex 0 (by omega), ?_⟩
    intro n
    beta_reduce
    rw [hout n]
    rcases hinv n with h | ⟨p, hp, hg⟩
    · right
      have ha : g.after body es (n + 1) = .finished := by show ((g.after body es n).next _).2 = _; rw [h]; rfl
      refine ⟨by rw [ha]; rfl, by unfold GenObj.outcome; rw [h]; rfl, ?_⟩
      intro i hi1 hi2
      simp only [h, examined] at hi1
      omega
    · simp only [hg, hex p hp]
      rcases hstep n p hp hg with ⟨q, x, a1, a2, a3, a4, a5, a6, a7⟩ | ⟨a1, a2, a3⟩
      · left
        refine ⟨q, x, a1, a2, ?_, a3, a4, a5, a7⟩
        rw [a6]; exact hex (q + 1) a2
      · right
        exact ⟨by rw [a2]; rfl, a1, a3⟩

end

/-- A scene without objects, with three receivers. -/
noncomputable def threeReceivers : Scene := .make [("tx", V2.fin ⟨0, 0⟩)] [("a", V2.fin ⟨1, 0⟩), ("b", V2.fin ⟨2, 0⟩), ("c", V2.fin ⟨3, 0⟩)] []

/-- A path class that goes straight to the receiver, and has no path to the receiver `b`. -/
noncomputable def straightTo (_ : Env) : Scene.PathMethod Unit :=
  ⟨fun _ t _ r => if r = V2.fin ⟨2, 0⟩ then .error .valueError else .ok ⟨[t, r], 0⟩⟩

/-- Non-vacuity of C95: three paths to compute, and the second one raises. The first call of `next` returns a path, the second one raises, and the
third one says that there is no path left: the path to the receiver `c` is lost. -/
example (kw : ActKw) (es : ℕ → Env) :
    let out := (Scene.allPathsGen Unit).outcome (threeReceivers.allPathsBody refLib (fun k _ => [k]) straightTo { minOrder := 0, maxOrder := 0 } { E := es 0, approx := some false, kw := kw } none) es
    (∃ a, out 0 = .item a) ∧ out 1 = .raised .valueError ∧ out 2 = .stopIteration := by
  intro out
  obtain ⟨cs, keys, h1, -, h2⟩ := C95_all_paths threeReceivers refLib (fun k _ => [k]) { minOrder := 0, maxOrder := 0 } (none : Option Unit) refLib_contract
    [("tx", V2.fin ⟨0, 0⟩)] [("a", V2.fin ⟨1, 0⟩), ("b", V2.fin ⟨2, 0⟩), ("c", V2.fin ⟨3, 0⟩)] (by simp [Distinct]) (by simp [Distinct]) rfl rfl (by simp [NonNegative])
  have e : threeReceivers.allPathCandidates refLib { minOrder := 0, maxOrder := 0 } = .ok [[]] := rfl
  rw [e] at h1
  cases h1
  let j : Job Unit := ⟨threeReceivers, [("tx", V2.fin ⟨0, 0⟩)], [("a", V2.fin ⟨1, 0⟩), ("b", V2.fin ⟨2, 0⟩), ("c", V2.fin ⟨3, 0⟩)], [[]], keys, straightTo,
    { E := es 0, approx := some false, kw := kw }⟩
  have h3 : ∀ n, ((∀ i < n, i < 3 → ∃ x, j.result (es i) i = .ok x) → (n < 3 → out n = seen (j.result (es n) n)) ∧ (3 ≤ n → out n = .stopIteration)) ∧
      ∀ e, out n = .raised e → ∀ k > n, out k = .stopIteration := h2 straightTo { E := es 0, approx := some false, kw := kw } es
  have r0 : ∃ x, j.result (es 0) 0 = .ok x := by
    have hb : ¬ V2.fin ⟨1, 0⟩ = V2.fin ⟨2, 0⟩ := fun h => by
      have := congrArg V2.x h
      simp [V2.fin] at this
    have hv := isValid_hard ⟨[V2.fin ⟨0, 0⟩, V2.fin ⟨1, 0⟩], 0⟩ (.inl rfl : Hard (es 0) (some false)) [] [] [] VALID_TOL DEFAULT_PATCH kw (by simp)
    have e1 : j.result (es 0) 0 = pathResult threeReceivers (straightTo (es 0)) { E := es 0, approx := some false, kw := kw } (keys 0) ("tx", V2.fin ⟨0, 0⟩) ("a", V2.fin ⟨1, 0⟩) [] := rfl
    have e2 : (straightTo (es 0)).trace (keys 0) (V2.fin ⟨0, 0⟩) [] (V2.fin ⟨1, 0⟩) = .ok ⟨[V2.fin ⟨0, 0⟩, V2.fin ⟨1, 0⟩], 0⟩ := if_neg hb
    have e3 : objectsAt threeReceivers [] = [] := rfl
    rw [e1]
    simp only [pathResult, e3, e2]
    erw [hv]
    exact ⟨_, rfl⟩
  have r1 : out 1 = .raised .valueError := by
    have e1 : j.result (es 1) 1 = .error .valueError := by
      have e2 : (straightTo (es 1)).trace (keys 1) (V2.fin ⟨0, 0⟩) [] (V2.fin ⟨2, 0⟩) = .error .valueError := if_pos rfl
      show pathResult threeReceivers (straightTo (es 1)) { E := es 1, approx := some false, kw := kw } (keys 1) ("tx", V2.fin ⟨0, 0⟩) ("b", V2.fin ⟨2, 0⟩) [] = _
      have e3 : objectsAt threeReceivers [] = [] := rfl
      simp only [pathResult, e3, e2]
    rw [((h3 1).1 fun i hi _ => by obtain rfl : i = 0 := (by omega); exact r0).1 (by norm_num), e1]
    rfl
  obtain ⟨x, hx⟩ := r0
  refine ⟨⟨x, ?_⟩, r1, (h3 1).2 _ r1 2 (by norm_num)⟩
  rw [((h3 0).1 fun i hi => absurd hi (by omega)).1 (by norm_num), hx]
  rfl

end DiffeRT2d.Props
