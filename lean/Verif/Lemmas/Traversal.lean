import Verif.Spec.Traversal
import Verif.Props.Scene
import Verif.Lemmas.Validity

/-! # Lemmas on path traversals -/

namespace DiffeRT2d
open Spec Props
open Classical

/-! ## Candidates -/

theorem orders_candidates (G : GraphLib) (hG : GraphContract G) (s : Scene) (o : Scene.Orders)
    (ho : NonNegative o) :
    ∃ cs, s.allPathCandidates G o = .ok cs ∧ ∀ c ∈ cs, IsCandidate s.objects.length c := by
  have key : ∀ lo hi : ℤ, 0 ≤ lo → ∀ f, ∃ cs, s.allPathCandidates G { minOrder := lo, maxOrder := hi, filter := f } = .ok cs ∧
      ∀ c ∈ cs, IsCandidate s.objects.length c := by
    intro lo hi hlo f
    obtain ⟨cs0, e0, _, hm0, _⟩ := C53_sound_complete G hG s lo hi hlo
    cases f with
    | none => exact ⟨cs0, e0, fun c hc => ((hm0 c).mp hc).1⟩
    | some keep =>
      obtain ⟨cs', fs, e1, e2, _, _, hm⟩ := C54_filter G hG s lo hi hlo keep
      rw [e0] at e1; cases e1
      exact ⟨fs, e2, fun c hc => ((hm0 c).mp ((hm c).mp hc).1).1⟩
  obtain ⟨lo, hi, ord, f⟩ := o
  cases ord with
  | none => exact key lo hi ho f
  | some k => rw [C53_order]; exact key k k ho f

theorem interacting_eq (s : Scene) (c : List ℤ) (hc : IsCandidate s.objects.length c) :
    s.getInteractingObjects c = .ok (objectsAt s c) := by
  obtain ⟨os, e, hl, hk⟩ := C51_interacting s c hc
  rw [e]
  congr 1
  unfold objectsAt
  clear e
  induction c generalizing os with
  | nil => simpa using hl
  | cons i c ih =>
    match os, hl with
    | o :: os, hl =>
      obtain ⟨o', h1, h2⟩ := hk 0 i (by simp)
      simp only [List.getElem?_cons_zero, Option.some.injEq] at h1
      subst h1
      rw [List.filterMap_cons, h2]
      simp only
      congr 1
      refine ih ⟨fun j hj => hc.1 j (by simp [hj]), fun k a b ha hb => hc.2 (k + 1) a b (by simpa using ha) (by simpa using hb)⟩ os (by simpa using hl) ?_
      intro k j hj
      obtain ⟨x, hx1, hx2⟩ := hk (k + 1) j (by simpa using hj)
      exact ⟨x, by simpa using hx1, hx2⟩

/-! ## Keys -/

/-- The running key after `n` paths. -/
def chainKey {Key : Type} (split : Key → ℕ → List Key) : ℕ → Option Key → Option Key
  | 0, k => k
  | n + 1, k => chainKey split n (Scene.splitKey split k).1

/-- The key of the `n`-th path. -/
def keyAt {Key : Type} (split : Key → ℕ → List Key) (n : ℕ) (k : Option Key) : Option Key :=
  (Scene.splitKey split (chainKey split n k)).2

theorem keyAt_succ {Key : Type} (split : Key → ℕ → List Key) (n : ℕ) (k : Option Key) :
    keyAt split (n + 1) k = keyAt split n (Scene.splitKey split k).1 := rfl

theorem keyAt_none {Key : Type} (split : Key → ℕ → List Key) (n : ℕ) : keyAt split n none = none := by
  induction n with
  | zero => rfl
  | succ n ih => rw [keyAt_succ]; exact ih

/-! ## The traversal -/

section
variable {Key : Type} (s : Scene) (split : Key → ℕ → List Key) (m : Scene.PathMethod Key) (v : Scene.ValidOpts)

/-- One turn of the loop. -/
def Turn (key : Option Key) (e : ((String × V2 F) × (String × V2 F)) × List ℤ) (x : Scene.Traced) : Prop :=
  x.tx = e.1.1.1 ∧ x.rx = e.1.2.1 ∧ x.candidate = e.2 ∧
    ∃ os, s.getInteractingObjects e.2 = .ok os ∧ m.trace key e.1.1.2 os e.1.2.2 = .ok x.path ∧
      s.validity v x.path e.2 os = .ok x.valid

theorem tracePaths_ok (key : Option Key) (l : List (((String × V2 F) × (String × V2 F)) × List ℤ))
    (ts : List Scene.Traced) :
    s.tracePaths split m v key l = .ok ts ↔
      ts.length = l.length ∧ ∀ (n : ℕ) e x, l[n]? = some e → ts[n]? = some x → Turn s m v (keyAt split n key) e x := by
  induction l generalizing key ts with
  | nil =>
    unfold Scene.tracePaths
    constructor
    · intro h; cases h; simp
    · rintro ⟨h, _⟩
      have : ts = [] := by simpa using h
      rw [this]
  | cons e l ih =>
    obtain ⟨⟨⟨tk, t⟩, ⟨rk, r⟩⟩, c⟩ := e
    unfold Scene.tracePaths
    constructor
    · intro h
      cases h1 : s.getInteractingObjects c with
      | error e => rw [h1] at h; cases h
      | ok os =>
        cases h2 : m.trace (Scene.splitKey split key).2 t os r with
        | error e => rw [h1] at h; simp only [bind, Except.bind, h2] at h; cases h
        | ok path =>
          cases h3 : s.validity v path c os with
          | error e => rw [h1] at h; simp only [bind, Except.bind, h2, h3] at h; cases h
          | ok valid =>
            cases h4 : s.tracePaths split m v (Scene.splitKey split key).1 l with
            | error e => rw [h1] at h; simp only [bind, Except.bind, h2, h3, h4] at h; cases h
            | ok others =>
              rw [h1] at h
              simp only [bind, Except.bind, h2, h3, h4, pure, Except.pure, Except.ok.injEq] at h
              subst h
              obtain ⟨hl, hr⟩ := (ih _ _).mp h4
              refine ⟨by simp [hl], ?_⟩
              intro n e x hn hx
              cases n with
              | zero =>
                simp only [List.getElem?_cons_zero, Option.some.injEq] at hn hx
                subst hn hx
                exact ⟨rfl, rfl, rfl, os, h1, h2, h3⟩
              | succ n =>
                rw [keyAt_succ]
                exact hr n e x (by simpa using hn) (by simpa using hx)
    · rintro ⟨hl, hr⟩
      match ts, hl with
      | x :: ts, hl =>
        obtain ⟨e1, e2, e3, os, h1, h2, h3⟩ := hr 0 (((tk, t), (rk, r)), c) x rfl rfl
        simp only at e1 e2 e3 h1 h2 h3
        have h2' : m.trace (Scene.splitKey split key).2 t os r = .ok x.path := h2
        have h4 : s.tracePaths split m v (Scene.splitKey split key).1 l = .ok ts :=
          (ih _ _).mpr ⟨by simpa using hl, fun n e y hn hy => by
            have := hr (n + 1) e y (by simpa using hn) (by simpa using hy)
            rwa [keyAt_succ] at this⟩
        rw [h1]
        simp only [bind, Except.bind, h2', h3, h4, pure, Except.pure]
        obtain ⟨xt, xr, xv, xp, xc⟩ := x
        simp only at e1 e2 e3
        rw [e1, e2, e3]

theorem facc_ok (f : Scene.PathFun) (t r : V2 F) (acc : F) (l : List (List ℤ × Option Key)) (z : F) :
    s.facc m v f t r acc l = .ok z ↔
      ∃ ys : List (List Obj × Path × Truthy), List.Forall₂ (fun ck y => s.getInteractingObjects ck.1 = .ok y.1 ∧
        m.trace ck.2 t y.1 r = .ok y.2.1 ∧ s.validity v y.2.1 ck.1 y.1 = .ok y.2.2) l ys ∧
        z = ys.foldl (fun a y => a + y.2.2.toF * f t r y.2.1 y.1) acc := by
  induction l generalizing acc with
  | nil =>
    unfold Scene.facc
    constructor
    · intro h; cases h; exact ⟨[], .nil, rfl⟩
    · rintro ⟨ys, h, rfl⟩; cases h; rfl
  | cons ck l ih =>
    obtain ⟨c, k⟩ := ck
    unfold Scene.facc
    constructor
    · intro h
      cases h1 : s.getInteractingObjects c with
      | error e => rw [h1] at h; cases h
      | ok os =>
        cases h2 : m.trace k t os r with
        | error e => rw [h1] at h; simp only [bind, Except.bind, h2] at h; cases h
        | ok path =>
          cases h3 : s.validity v path c os with
          | error e => rw [h1] at h; simp only [bind, Except.bind, h2, h3] at h; cases h
          | ok valid =>
            rw [h1] at h
            simp only [bind, Except.bind, h2, h3] at h
            obtain ⟨ys, hys, rfl⟩ := (ih _).mp h
            exact ⟨(os, path, valid) :: ys, .cons ⟨h1, h2, h3⟩ hys, rfl⟩
    · rintro ⟨ys, h, rfl⟩
      cases h with
      | cons h1 h2 =>
        obtain ⟨a1, a2, a3⟩ := h1
        simp only at a1 a2 a3
        rw [a1]
        simp only [bind, Except.bind, a2, a3]
        exact (ih _).mpr ⟨_, h2, rfl⟩

end

theorem accumulateGroup_ok (s : Scene) (f : Scene.PathFun) (t r : V2 F) (acc : F) (ts : List Scene.Traced)
    (os : Scene.Traced → List Obj) (h : ∀ x ∈ ts, s.getInteractingObjects x.candidate = .ok (os x)) :
    s.accumulateGroup f t r acc ts =
      .ok (ts.foldl (fun a x => a + x.valid.toF * f t r x.path (os x)) acc) := by
  induction ts generalizing acc with
  | nil => rfl
  | cons x ts ih =>
    unfold Scene.accumulateGroup
    rw [h x (by simp)]
    exact ih _ (fun y hy => h y (by simp [hy]))

/-! ## groupby -/

theorem groupby_ne_nil {α κ : Type*} [DecidableEq κ] (f : α → κ) (a : α) (as : List α) :
    ∃ g rest, Scene.groupby f (a :: as) = (f a, g) :: rest := by
  unfold Scene.groupby
  split
  · exact ⟨_, _, rfl⟩
  · rename_i k g rest _
    split_ifs with h
    · subst h; exact ⟨_, _, rfl⟩
    · exact ⟨_, _, rfl⟩

theorem groupby_block {α κ : Type*} [DecidableEq κ] (f : α → κ) (k : κ) (xs : List α) (hx : xs ≠ [])
    (hk : ∀ x ∈ xs, f x = k) (rest : List α) (hr : ∀ a ∈ rest.head?, f a ≠ k) :
    Scene.groupby f (xs ++ rest) = (k, xs) :: Scene.groupby f rest := by
  induction xs with
  | nil => exact absurd rfl hx
  | cons x xs ih =>
    have hxk := hk x (by simp)
    rw [List.cons_append, Scene.groupby]
    cases xs with
    | nil =>
      rw [List.nil_append]
      cases rest with
      | nil => simp [Scene.groupby, hxk]
      | cons a as =>
        obtain ⟨g, rs, e⟩ := groupby_ne_nil f a as
        rw [e]
        simp only
        have hne : f a ≠ f x := by rw [hxk]; exact hr a (by simp)
        rw [if_neg hne, hxk]
    | cons y ys =>
      rw [ih (by simp) (fun z hz => hk z (by simp [hz]))]
      simp only [hxk, if_true]

theorem groupby_blocks {α κ : Type*} [DecidableEq κ] (f : α → κ) (bs : List (κ × List α))
    (hne : ∀ b ∈ bs, b.2 ≠ []) (hk : ∀ b ∈ bs, ∀ x ∈ b.2, f x = b.1) (hd : (bs.map Prod.fst).Nodup) :
    Scene.groupby f (bs.map Prod.snd).flatten = bs := by
  induction bs with
  | nil => rfl
  | cons b bs ih =>
    simp only [List.map_cons, List.nodup_cons] at hd
    rw [List.map_cons, List.flatten_cons, groupby_block f b.1 b.2 (hne b (by simp)) (hk b (by simp)),
      ih (fun x hx => hne x (by simp [hx])) (fun x hx => hk x (by simp [hx])) hd.2]
    intro a ha
    cases bs with
    | nil => simp at ha
    | cons b' bs =>
      have hne' := hne b' (by simp)
      rw [List.map_cons, List.flatten_cons, List.head?_append_of_ne_nil _ hne'] at ha
      have := hk b' (by simp) a (List.mem_of_mem_head? ha)
      rw [this]
      intro e
      exact hd.1 (by rw [← e]; simp)

/-- Elements of a list in blocks: filtering by the key of a block gives the block. -/
theorem filter_blocks {α κ : Type*} [DecidableEq κ] (f : α → κ) (bs : List (κ × List α))
    (hk : ∀ b ∈ bs, ∀ x ∈ b.2, f x = b.1) (hd : (bs.map Prod.fst).Nodup) (b : κ × List α) (hb : b ∈ bs) :
    (bs.map Prod.snd).flatten.filter (fun x => f x = b.1) = b.2 := by
  induction bs with
  | nil => simp at hb
  | cons c bs ih =>
    simp only [List.map_cons, List.nodup_cons] at hd
    rw [List.map_cons, List.flatten_cons, List.filter_append]
    rcases List.mem_cons.mp hb with rfl | hb'
    · have e1 : b.2.filter (fun x => f x = b.1) = b.2 := by
        apply List.filter_eq_self.mpr
        intro x hx; simpa using hk b (by simp) x hx
      have e2 : (bs.map Prod.snd).flatten.filter (fun x => f x = b.1) = [] := by
        rw [List.filter_eq_nil_iff]
        intro x hx
        obtain ⟨l, hl, hxl⟩ := List.mem_flatten.mp hx
        obtain ⟨c, hc, rfl⟩ := List.mem_map.mp hl
        have := hk c (by simp [hc]) x hxl
        simp only [decide_eq_true_eq]
        intro e
        exact hd.1 (by rw [← e, this]; exact List.mem_map_of_mem hc)
      rw [e1, e2, List.append_nil]
    · have e1 : c.2.filter (fun x => f x = b.1) = [] := by
        rw [List.filter_eq_nil_iff]
        intro x hx
        have := hk c (by simp) x hx
        simp only [decide_eq_true_eq]
        intro e
        exact hd.1 (by rw [← this, e]; exact List.mem_map_of_mem hb')
      rw [e1, List.nil_append]
      exact ih (fun x hx => hk x (by simp [hx])) hd.2 hb'

/-! ## Lists -/

theorem product_get {α β : Type*} (xs : List α) (ys : List β) (i j : ℕ) (x : α) (y : β)
    (hi : xs[i]? = some x) (hj : ys[j]? = some y) : (xs ×ˢ ys)[i * ys.length + j]? = some (x, y) := by
  have hjl : j < ys.length := (List.getElem?_eq_some_iff.mp hj).1
  induction xs generalizing i with
  | nil => simp at hi
  | cons a xs ih =>
    rw [List.product_cons]
    cases i with
    | zero =>
      simp only [List.getElem?_cons_zero, Option.some.injEq] at hi
      subst hi
      rw [List.getElem?_append_left (by simpa using hjl)]
      simp [hj]
    | succ i =>
      rw [List.getElem?_append_right (by simp; nlinarith)]
      simp only [List.length_map]
      rw [show (i + 1) * ys.length + j - ys.length = i * ys.length + j by rw [Nat.succ_mul]; omega]
      exact ih i (by simpa using hi)

theorem mapM_iff {α β : Type} (f : α → Except PyErr β) (xs : List α) (ys : List β) :
    xs.mapM f = .ok ys ↔ List.Forall₂ (fun x y => f x = .ok y) xs ys := by
  induction xs generalizing ys with
  | nil =>
    constructor
    · intro h; cases h; exact .nil
    · intro h; cases h; rfl
  | cons x xs ih =>
    rw [List.mapM_cons]
    constructor
    · intro h
      cases h1 : f x with
      | error e => rw [h1] at h; cases h
      | ok y =>
        cases h2 : xs.mapM f with
        | error e => rw [h1, h2] at h; cases h
        | ok ys' =>
          rw [h1, h2] at h
          cases h
          exact .cons h1 ((ih _).mp h2)
    · intro h
      cases h with
      | cons h1 h2 => rw [h1, (ih _).mpr h2]; rfl

theorem sum_eq_foldl {α : Type*} (w : α → F) (xs : List α) : xs.foldl (fun a x => a + w x) 0 = F.sum (xs.map w) := by
  unfold F.sum
  rw [List.foldl_map, F.zero_eq]

theorem flatMap_product {α β : Type*} (xs : List α) (ys : List β) :
    (xs.flatMap fun x => ys.map fun y => (x, y)) = xs ×ˢ ys := rfl

end DiffeRT2d
