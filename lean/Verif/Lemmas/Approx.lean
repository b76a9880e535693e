import Verif.Model.Approx
import Mathlib.Tactic.Common

/-! Lemmas about the approximation-setting machine. -/

namespace DiffeRT2d.Approx

/-- A single-threaded run leaves the lock as it found it. -/
theorem exec_depth (p : Prog) (s : St) : (exec p s).st.depth = s.depth := by
  induction p generalizing s with
  | skip => rfl
  | seq p q ihp ihq => simp only [exec]; split <;> simp [ihp, ihq]
  | set b => simp [exec]
  | withEnable b body ih => simp [exec, ih]
  | withDisable b body ih => simp [exec, ih]
  | read k ih => simp [exec, ih]
  | raise => rfl
  | tryExcept p h ihp ihh => simp only [exec]; split <;> simp [ihp, ihh]

/-- Number of times a thread still has to release the lock. -/
def rels : List Item → ℕ
  | [] => 0
  | .rel :: r => rels r + 1
  | _ :: r => rels r

/-- Shape of the pending items: a pending write or restoration is directly followed by a release. -/
def ok : List Item → Prop
  | [] => True
  | .wr _ _ _ :: r => r.head? = some .rel ∧ ok r
  | .setWr _ :: r => r.head? = some .rel ∧ ok r
  | .restore _ :: r => r.head? = some .rel ∧ ok r
  | _ :: r => ok r

/-- Lock invariant. -/
structure Inv (c : Config) : Prop where
  shape : ∀ t, ok (c.threads t).items
  other : ∀ t, c.owner ≠ some t → rels (c.threads t).items = 0
  own : ∀ t, c.owner = some t → rels (c.threads t).items = c.depth ∧ 0 < c.depth
  free : c.owner = none → c.depth = 0

theorem inv_init (b : Bool) (progs : ℕ → Prog) : Inv (Config.init b progs) := by
  constructor <;> simp [Config.init, ok, rels]

@[simp] theorem put_owner (c : Config) (t : ℕ) (th : Thread) : (c.put t th).owner = c.owner := rfl
@[simp] theorem put_depth (c : Config) (t : ℕ) (th : Thread) : (c.put t th).depth = c.depth := rfl
@[simp] theorem put_setting (c : Config) (t : ℕ) (th : Thread) : (c.put t th).setting = c.setting := rfl
theorem put_self (c : Config) (t : ℕ) (th : Thread) : (c.put t th).threads t = th := by
  simp [Config.put]
theorem put_other (c : Config) {t u : ℕ} (th : Thread) (h : u ≠ t) :
    (c.put t th).threads u = c.threads u := by
  simp [Config.put, h]

/-- A step that neither acquires nor releases keeps the lock invariant. -/
theorem inv_keep {c : Config} (h : Inv c) (t : ℕ) (b : Bool) (th : Thread)
    (hok : ok th.items) (hr : rels th.items = rels (c.threads t).items) :
    Inv ({ c with setting := b }.put t th) := by
  refine ⟨?_, ?_, ?_, h.free⟩
  · intro u
    by_cases hu : u = t
    · subst hu; rw [put_self]; exact hok
    · rw [put_other _ _ hu]; exact h.shape u
  · intro u ho
    by_cases hu : u = t
    · subst hu; rw [put_self, hr]; exact h.other u ho
    · rw [put_other _ _ hu]; exact h.other u ho
  · intro u ho
    by_cases hu : u = t
    · subst hu; rw [put_self, hr]; exact h.own u ho
    · rw [put_other _ _ hu]; exact h.own u ho

theorem inv_acq {c : Config} (h : Inv c) (t : ℕ) (th : Thread)
    (hok : ok th.items) (hr : rels th.items = rels (c.threads t).items + 1)
    (ho : c.owner = none ∨ c.owner = some t) :
    Inv ({ c with owner := some t, depth := c.depth + 1 }.put t th) := by
  have key : rels (c.threads t).items = c.depth := by
    rcases ho with ho | ho
    · rw [h.free ho]; exact h.other t (by simp [ho])
    · exact (h.own t ho).1
  refine ⟨?_, ?_, ?_, ?_⟩
  · intro u
    by_cases hu : u = t
    · subst hu; rw [put_self]; exact hok
    · rw [put_other _ _ hu]; exact h.shape u
  · intro u hne
    have hu : u ≠ t := fun e => hne (by simp [e])
    rw [put_other _ _ hu]
    apply h.other u
    rcases ho with ho | ho <;> simp [ho, Ne.symm hu]
  · intro u hu
    simp only [put_owner, Option.some.injEq] at hu
    subst hu
    rw [put_self, hr, key]; simp
  · intro hn; simp at hn

theorem inv_rel {c : Config} (h : Inv c) (t : ℕ) (th : Thread)
    (hok : ok th.items) (hr : rels (c.threads t).items = rels th.items + 1) :
    Inv ({ c with owner := if c.depth ≤ 1 then none else c.owner, depth := c.depth - 1 }.put t th) := by
  have ho : c.owner = some t := by
    by_contra hne; have := h.other t hne; omega
  have hd := (h.own t ho).1
  refine ⟨?_, ?_, ?_, ?_⟩
  · intro u
    by_cases hu : u = t
    · subst hu; rw [put_self]; exact hok
    · rw [put_other _ _ hu]; exact h.shape u
  · intro u hne
    by_cases hu : u = t
    · subst hu
      rw [put_self]
      simp only [put_owner] at hne
      split at hne
      · omega
      · exact absurd ho hne
    · rw [put_other _ _ hu]; exact h.other u (by rw [ho]; simp [Ne.symm hu])
  · intro u hu
    simp only [put_owner] at hu
    split at hu
    · simp at hu
    · rw [ho, Option.some.injEq] at hu
      subst hu
      rw [put_self]; simp only [put_depth]; omega
  · intro hn
    simp only [put_owner] at hn
    simp only [put_depth]
    split at hn
    · omega
    · rw [ho] at hn; simp at hn

theorem inv_keep' {c : Config} (h : Inv c) (t : ℕ) (th : Thread)
    (hok : ok th.items) (hr : rels th.items = rels (c.threads t).items) : Inv (c.put t th) :=
  inv_keep h t c.setting th hok hr

theorem inv_step {c c' : Config} {t : ℕ} (h : Inv c) (hs : step c t = some c') : Inv c' := by
  have hsh := h.shape t
  unfold step at hs
  cases hi : (c.threads t).items with
  | nil => simp [hi] at hs
  | cons it rest =>
    rw [hi] at hsh
    simp only [hi] at hs
    split at hs
    · cases it <;> simp only [Option.some.injEq, reduceCtorEq] at hs <;> subst hs <;> simp only [ok] at hsh
      case rel => exact inv_rel h t _ hsh (by simp [hi, rels])
      case restore => exact inv_keep h t _ _ hsh.2 (by simp [hi, rels])
      all_goals first
        | exact inv_keep' h t _ hsh (by simp [hi, rels])
        | exact inv_keep' h t _ hsh.2 (by simp [hi, rels])
    · cases it
      case stmt p =>
        simp only [ok] at hsh
        cases p <;> simp only [Option.some.injEq] at hs <;> subst hs <;>
          exact inv_keep' h t _ (by simpa [ok] using hsh) (by simp [hi, rels])
      case acq b s body =>
        simp only [ok] at hsh
        simp only at hs
        split at hs
        · rename_i ho
          simp only [Option.some.injEq] at hs; subst hs
          exact inv_acq h t _ (by simpa [ok] using hsh) (by simp [hi, rels]) ho
        · simp at hs
      case setAcq b =>
        simp only [ok] at hsh
        simp only at hs
        split at hs
        · rename_i ho
          simp only [Option.some.injEq] at hs; subst hs
          exact inv_acq h t _ (by simpa [ok] using hsh) (by simp [hi, rels]) ho
        · simp at hs
      all_goals simp only [Option.some.injEq] at hs; subst hs; simp only [ok] at hsh
      case rel => exact inv_rel h t _ hsh (by simp [hi, rels])
      case handler => exact inv_keep' h t _ hsh (by simp [hi, rels])
      case wr => exact inv_keep h t _ _ (by simp [ok, hsh.1, hsh.2]) (by simp [hi, rels])
      case restore => exact inv_keep h t _ _ hsh.2 (by simp [hi, rels])
      case setWr => exact inv_keep h t _ _ hsh.2 (by simp [hi, rels])

theorem runs_append (c : Config) (ts us : List ℕ) :
    runs c (ts ++ us) = (runs c ts).bind fun c' => runs c' us := by
  induction ts generalizing c with
  | nil => rfl
  | cons t ts ih =>
    simp only [List.cons_append, runs]
    cases step c t <;> simp [ih]

theorem inv_runs {c c' : Config} {ts : List ℕ} (h : Inv c) (hs : runs c ts = some c') : Inv c' := by
  induction ts generalizing c with
  | nil => simp only [runs, Option.some.injEq] at hs; exact hs ▸ h
  | cons t ts ih =>
    simp only [runs] at hs
    cases hst : step c t with
    | none => simp [hst] at hs
    | some d => simp [hst] at hs; exact ih (inv_step h hst) hs

theorem rels_pos_of_head {r : List Item} (h : r.head? = some .rel) : 0 < rels r := by
  cases r with
  | nil => simp at h
  | cons a r => simp only [List.head?_cons, Option.some.injEq] at h; subst h; simp [rels]

theorem rels_cons (it : Item) (r : List Item) : rels r ≤ rels (it :: r) := by
  cases it <;> simp [rels]

theorem rels_pos_of_restore {items : List Item} (h : ok items) {s : Bool}
    (hm : Item.restore s ∈ items) : 0 < rels items := by
  induction items with
  | nil => simp at hm
  | cons it r ih =>
    rcases List.mem_cons.mp hm with hm | hm
    · subst hm; simp only [ok] at h; simp only [rels]; exact rels_pos_of_head h.1
    · have : ok r := by cases it <;> simp only [ok] at h <;> first | exact h | exact h.2
      exact (ih this hm).trans_le (rels_cons it r)

/-- Only a thread that owns the lock can change the setting. -/
theorem step_setting {c c' : Config} {t : ℕ} (h : Inv c) (hs : step c t = some c')
    (hne : c'.setting ≠ c.setting) : c.owner = some t := by
  by_contra ho
  have hz := h.other t ho
  have hsh := h.shape t
  unfold step at hs
  cases hi : (c.threads t).items with
  | nil => simp [hi] at hs
  | cons it rest =>
    rw [hi] at hsh hz
    simp only [hi] at hs
    split at hs
    · cases it <;> simp only [Option.some.injEq, reduceCtorEq] at hs <;> subst hs <;> simp only [ok, rels] at hsh hz
      case restore => have := rels_pos_of_head hsh.1; omega
      all_goals exact hne rfl
    · cases it
      case stmt p => cases p <;> simp only [Option.some.injEq] at hs <;> subst hs <;> exact hne rfl
      case acq b s body =>
        simp only at hs
        split at hs
        · simp only [Option.some.injEq] at hs; subst hs; exact hne rfl
        · simp at hs
      case setAcq b =>
        simp only at hs
        split at hs
        · simp only [Option.some.injEq] at hs; subst hs; exact hne rfl
        · simp at hs
      all_goals simp only [Option.some.injEq] at hs; subst hs; simp only [ok, rels] at hsh hz
      case rel => exact hne rfl
      case handler => exact hne rfl
      all_goals have := rels_pos_of_head hsh.1; omega

/-! ### Restoration, for schedules without the race -/

/-- No `set_approx` outside of every `with` block. -/
def Guarded : Prog → Prop
  | .skip => True
  | .seq p q => Guarded p ∧ Guarded q
  | .set _ => False
  | .withEnable _ _ => True
  | .withDisable _ _ => True
  | .read k => ∀ b, Guarded (k b)
  | .raise => True
  | .tryExcept p h => Guarded p ∧ Guarded h

/-- An item of a thread that is outside every block. -/
def Out (v : Bool) : Item → Prop
  | .stmt p => Guarded p
  | .handler h => Guarded h
  | .acq _ s _ => s = v
  | _ => False

/-- Pending items of the lock owner. -/
def In (v : Bool) (setting : Bool) (items : List Item) : Prop :=
  (∃ inner rest, items = inner ++ .restore v :: .rel :: rest ∧ ∀ i ∈ rest, Out v i) ∨
  (∃ b body rest, items = .wr b v body :: .rel :: rest ∧ ∀ i ∈ rest, Out v i) ∨
  (∃ rest, items = .rel :: rest ∧ setting = v ∧ ∀ i ∈ rest, Out v i)

structure Inv2 (v : Bool) (c : Config) : Prop extends Inv c where
  out : ∀ t, c.owner ≠ some t → ∀ i ∈ (c.threads t).items, Out v i
  inn : ∀ t, c.owner = some t → In v c.setting (c.threads t).items
  quiet : c.owner = none → c.setting = v

/-- The step of thread `t` in `c` is not the unprotected read of the setting at the entry of a
`with` block while another thread holds the lock. -/
def CleanStep (c : Config) (t : ℕ) : Prop :=
  (∃ b body rest, (c.threads t).items = .stmt (.withEnable b body) :: rest ∨
    (c.threads t).items = .stmt (.withDisable b body) :: rest) →
  c.owner = none ∨ c.owner = some t

/-- Every step of the schedule is clean. -/
def CleanRun (c : Config) : List ℕ → Prop
  | [] => True
  | t :: ts => CleanStep c t ∧ ∀ c', step c t = some c' → CleanRun c' ts

theorem cleanRun_cons {c d : Config} {t : ℕ} {ts : List ℕ} (h : step c t = some d)
    (h1 : CleanStep c t) (h2 : CleanRun d ts) : CleanRun c (t :: ts) :=
  ⟨h1, fun c' hc' => by rw [h, Option.some.injEq] at hc'; exact hc' ▸ h2⟩

theorem rels_append (a b : List Item) : rels (a ++ b) = rels a + rels b := by
  induction a with
  | nil => simp [rels]
  | cons x a ih => cases x <;> simp [rels, ih] ; omega

theorem rels_out {v : Bool} {r : List Item} (h : ∀ i ∈ r, Out v i) : rels r = 0 := by
  induction r with
  | nil => rfl
  | cons x r ih =>
    have := ih (fun i hi => h i (by simp [hi]))
    have hx := h x (by simp)
    cases x <;> simp_all [rels, Out]

theorem inv2_init (b : Bool) (progs : ℕ → Prog) (hg : ∀ t, Guarded (progs t)) :
    Inv2 b (Config.init b progs) := by
  refine ⟨inv_init b progs, ?_, ?_, fun _ => rfl⟩
  · intro t _ i hi
    simp only [Config.init, List.mem_singleton] at hi
    subst hi; exact hg t
  · intro t ht; simp [Config.init] at ht

/-- Steps of the owner within the block. -/
theorem inv2_own {v : Bool} {c : Config} (h : Inv2 v c) {t : ℕ} (ho : c.owner = some t) {b : Bool}
    {th : Thread} (hinv : Inv ({ c with setting := b }.put t th)) (hin : In v b th.items) :
    Inv2 v ({ c with setting := b }.put t th) := by
  refine ⟨hinv, ?_, ?_, ?_⟩
  · intro u hu
    have hut : u ≠ t := by rintro rfl; exact hu ho
    rw [put_other _ _ hut]; exact h.out u hu
  · intro u hu
    simp only [put_owner] at hu
    rw [ho] at hu; simp only [Option.some.injEq] at hu; subst hu
    rw [put_self]; exact hin
  · intro hn; simp only [put_owner] at hn; rw [ho] at hn; simp at hn

theorem inv2_own' {v : Bool} {c : Config} (h : Inv2 v c) {t : ℕ} (ho : c.owner = some t)
    {th : Thread} (hinv : Inv (c.put t th)) (hin : In v c.setting th.items) :
    Inv2 v (c.put t th) := inv2_own (b := c.setting) h ho hinv hin

theorem inv2_out {v : Bool} {c : Config} (h : Inv2 v c) {t : ℕ} (ho : c.owner ≠ some t)
    {th : Thread} (hinv : Inv (c.put t th)) (hout : ∀ i ∈ th.items, Out v i) :
    Inv2 v (c.put t th) := by
  refine ⟨hinv, ?_, ?_, h.quiet⟩
  · intro u hu
    by_cases hut : u = t
    · subst hut; rw [put_self]; exact hout
    · rw [put_other _ _ hut]; exact h.out u hu
  · intro u hu
    have hut : u ≠ t := by rintro rfl; exact ho hu
    rw [put_other _ _ hut]; exact h.inn u hu

/-- A non-owner taking the lock. -/
theorem inv2_take {v : Bool} {c : Config} (h : Inv2 v c) {t : ℕ} (ho : c.owner = none)
    {th : Thread} (hinv : Inv ({ c with owner := some t, depth := c.depth + 1 }.put t th))
    (hin : In v c.setting th.items) :
    Inv2 v ({ c with owner := some t, depth := c.depth + 1 }.put t th) := by
  refine ⟨hinv, ?_, ?_, ?_⟩
  · intro u hu
    have hut : u ≠ t := by rintro rfl; exact hu rfl
    rw [put_other _ _ hut]; exact h.out u (by simp [ho])
  · intro u hu
    simp only [put_owner, Option.some.injEq] at hu; subst hu
    rw [put_self]; exact hin
  · intro hn; simp at hn

/-- The owner re-entering the lock. -/
theorem inv2_retake {v : Bool} {c : Config} (h : Inv2 v c) {t : ℕ} (ho : c.owner = some t)
    {th : Thread} (hinv : Inv ({ c with owner := some t, depth := c.depth + 1 }.put t th))
    (hin : In v c.setting th.items) :
    Inv2 v ({ c with owner := some t, depth := c.depth + 1 }.put t th) := by
  refine ⟨hinv, ?_, ?_, ?_⟩
  · intro u hu
    have hut : u ≠ t := by rintro rfl; exact hu rfl
    rw [put_other _ _ hut]; exact h.out u (by rw [ho]; simp [Ne.symm hut])
  · intro u hu
    simp only [put_owner, Option.some.injEq] at hu; subst hu
    rw [put_self]; exact hin
  · intro hn; simp at hn

theorem inv2_release {v : Bool} {c : Config} (h : Inv2 v c) {t : ℕ} {rest : List Item} {r : Bool}
    (hi : (c.threads t).items = .rel :: rest)
    (hinv : Inv ({ c with owner := if c.depth ≤ 1 then none else c.owner,
                          depth := c.depth - 1 }.put t ⟨rest, r⟩)) :
    Inv2 v ({ c with owner := if c.depth ≤ 1 then none else c.owner,
                     depth := c.depth - 1 }.put t ⟨rest, r⟩) := by
  have ho : c.owner = some t := by
    by_contra hne; have := h.other t hne; rw [hi] at this; simp [rels] at this
  have hd := (h.own t ho).1
  rw [hi] at hd
  have hin := h.inn t ho
  rw [hi] at hin
  rcases hin with ⟨inner, rest', he, hr⟩ | ⟨b, body, rest', he, hr⟩ | ⟨rest', he, hs, hr⟩
  · cases inner with
    | nil => simp at he
    | cons x inner =>
      simp only [List.cons_append, List.cons.injEq] at he
      obtain ⟨rfl, rfl⟩ := he
      have hd2 : ¬ c.depth ≤ 1 := by
        rw [← hd]; simp only [rels, rels_append]; omega
      simp only [hd2, if_false] at hinv ⊢
      refine ⟨hinv, ?_, ?_, ?_⟩
      · intro u hu
        have hut : u ≠ t := by rintro rfl; exact hu ho
        rw [put_other _ _ hut]; exact h.out u hu
      · intro u hu
        simp only [put_owner] at hu
        rw [ho] at hu; simp only [Option.some.injEq] at hu; subst hu
        rw [put_self]; exact Or.inl ⟨inner, rest', rfl, hr⟩
      · intro hn; simp only [put_owner] at hn; rw [ho] at hn; simp at hn
  · simp at he
  · simp only [List.cons.injEq, true_and] at he
    subst he
    have hd2 : c.depth ≤ 1 := by rw [← hd]; simp [rels, rels_out hr]
    simp only [hd2, if_true] at hinv ⊢
    refine ⟨hinv, ?_, ?_, fun _ => hs⟩
    · intro u _
      by_cases hut : u = t
      · subst hut; rw [put_self]; exact hr
      · rw [put_other _ _ hut]; exact h.out u (by rw [ho]; simp [Ne.symm hut])
    · intro u hu; simp at hu

/-- An owner's item that is neither a release nor one of the two markers lies in the inner part. -/
theorem in_cons {v s : Bool} {it : Item} {rest : List Item} (h : In v s (it :: rest))
    (h1 : it ≠ .rel) (h2 : ∀ b body, it ≠ .wr b v body) (h3 : it ≠ .restore v) :
    ∃ inner rest', rest = inner ++ .restore v :: .rel :: rest' ∧ ∀ i ∈ rest', Out v i := by
  rcases h with ⟨inner, rest', he, hr⟩ | ⟨b, body, rest', he, hr⟩ | ⟨rest', he, hs, hr⟩
  · cases inner with
    | nil => simp only [List.nil_append, List.cons.injEq] at he; exact absurd he.1 h3
    | cons x inner =>
      simp only [List.cons_append, List.cons.injEq] at he
      exact ⟨inner, rest', he.2, hr⟩
  · simp only [List.cons.injEq] at he; exact absurd he.1 (h2 b body)
  · simp only [List.cons.injEq] at he; exact absurd he.1 h1

theorem inv2_step {v : Bool} {c c' : Config} {t : ℕ} (h : Inv2 v c) (hcl : CleanStep c t)
    (hs : step c t = some c') : Inv2 v c' := by
  have hinv := inv_step h.toInv hs
  unfold step at hs
  cases hi : (c.threads t).items with
  | nil => simp [hi] at hs
  | cons it rest =>
    simp only [hi] at hs
    by_cases ho : c.owner = some t
    · -- the owner steps
      have hin := h.inn t ho
      rw [hi] at hin
      have inr : ∀ (pre : List Item) (s : Bool), it ≠ .rel → (∀ b body, it ≠ .wr b v body) →
          it ≠ .restore v → In v s (pre ++ rest) := by
        intro pre s h1 h2 h3
        obtain ⟨inner, rest', he, hr⟩ := in_cons hin h1 h2 h3
        exact Or.inl ⟨pre ++ inner, rest', by simp [he], hr⟩
      have hwr : ∀ b s body, it = .wr b s body → ∃ inner rest', .restore s :: rest =
          inner ++ .restore v :: .rel :: rest' ∧ ∀ i ∈ rest', Out v i := by
        rintro b s body rfl
        rcases hin with ⟨inner, rest', he, hr⟩ | ⟨b', body', rest', he, hr⟩ | ⟨rest', he, _, hr⟩
        · cases inner with
          | nil => simp at he
          | cons x inner =>
            simp only [List.cons_append, List.cons.injEq] at he
            exact ⟨.restore s :: inner, rest', by simp [he.2], hr⟩
        · simp only [List.cons.injEq, Item.wr.injEq] at he
          obtain ⟨⟨rfl, rfl, rfl⟩, rfl⟩ := he
          exact ⟨[], rest', rfl, hr⟩
        · simp at he
      have hres : ∀ s, it = .restore s → In v s rest := by
        rintro s rfl
        rcases hin with ⟨inner, rest', he, hr⟩ | ⟨b', body', rest', he, hr⟩ | ⟨rest', he, _, hr⟩
        · cases inner with
          | nil =>
            simp only [List.nil_append, List.cons.injEq, Item.restore.injEq] at he
            obtain ⟨rfl, rfl⟩ := he
            exact Or.inr (Or.inr ⟨rest', rfl, rfl, hr⟩)
          | cons x inner =>
            simp only [List.cons_append, List.cons.injEq] at he
            exact Or.inl ⟨inner, rest', he.2, hr⟩
        · simp at he
        · simp at he
      split at hs
      · cases it <;> simp only [Option.some.injEq, reduceCtorEq] at hs <;> subst hs
        case restore s => exact inv2_own h ho hinv (hres s rfl)
        case rel => exact inv2_release h hi hinv
        case handler p => exact inv2_own h ho hinv (by simpa using inr [.stmt p] _ (by simp) (by simp) (by simp))
        case stmt p => exact inv2_own h ho hinv (by simpa using inr [] _ (by simp) (by simp) (by simp))
      · cases it
        case stmt p =>
          cases p <;> simp only [Option.some.injEq] at hs <;> subst hs
          case skip => exact inv2_own h ho hinv (by simpa using inr [] _ (by simp) (by simp) (by simp))
          case raise => exact inv2_own h ho hinv (by simpa using inr [] _ (by simp) (by simp) (by simp))
          case seq p q =>
            exact inv2_own h ho hinv
              (by simpa using inr [.stmt p, .stmt q] _ (by simp) (by simp) (by simp))
          case set b =>
            exact inv2_own h ho hinv
              (by simpa using inr [.setAcq b] _ (by simp) (by simp) (by simp))
          case withEnable b body =>
            exact inv2_own' h ho hinv
              (by simpa using inr [.acq b c.setting body] _ (by simp) (by simp) (by simp))
          case withDisable b body =>
            exact inv2_own' h ho hinv
              (by simpa using inr [.acq (!b) c.setting body] _ (by simp) (by simp) (by simp))
          case read k =>
            exact inv2_own' h ho hinv
              (by simpa using inr [.stmt (k c.setting)] _ (by simp) (by simp) (by simp))
          case tryExcept p q =>
            exact inv2_own h ho hinv
              (by simpa using inr [.stmt p, .handler q] _ (by simp) (by simp) (by simp))
        case acq b s body =>
          simp only at hs
          split at hs
          · simp only [Option.some.injEq] at hs; subst hs
            exact inv2_retake h ho hinv
              (by simpa using inr [.wr b s body, .rel] _ (by simp) (by simp) (by simp))
          · simp at hs
        case setAcq b =>
          simp only at hs
          split at hs
          · simp only [Option.some.injEq] at hs; subst hs
            exact inv2_retake h ho hinv
              (by simpa using inr [.setWr b, .rel] _ (by simp) (by simp) (by simp))
          · simp at hs
        all_goals simp only [Option.some.injEq] at hs; subst hs
        case rel => exact inv2_release h hi hinv
        case handler => exact inv2_own h ho hinv (by simpa using inr [] _ (by simp) (by simp) (by simp))
        case setWr b => exact inv2_own h ho hinv (by simpa using inr [] _ (by simp) (by simp) (by simp))
        case restore s => exact inv2_own h ho hinv (hres s rfl)
        case wr b s body =>
          refine inv2_own h ho hinv ?_
          obtain ⟨inner, rest', he, hr⟩ := hwr b s body rfl
          exact Or.inl ⟨.stmt body :: inner, rest', by simp [he], hr⟩
    · -- a thread outside steps
      have hout := h.out t ho
      rw [hi] at hout
      have hrest : ∀ i ∈ rest, Out v i := fun i hm => hout i (by simp [hm])
      have hit := hout it (by simp)
      split at hs
      · cases it <;> simp only [Option.some.injEq, reduceCtorEq] at hs <;> subst hs <;>
          simp only [Out] at hit
        case stmt p => exact inv2_out h ho hinv hrest
        case handler p =>
          exact inv2_out h ho hinv (by
            intro i hm; rcases List.mem_cons.mp hm with rfl | hm
            · exact hit
            · exact hrest i hm)
      · cases it <;> simp only [Out] at hit
        case stmt p =>
          cases p <;> simp only [Option.some.injEq] at hs <;> subst hs <;>
            simp only [Guarded] at hit
          case skip => exact inv2_out h ho hinv hrest
          case raise => exact inv2_out h ho hinv hrest
          case withEnable b body =>
            rcases hcl ⟨b, body, rest, Or.inl hi⟩ with hn | hn
            · refine inv2_out h ho hinv ?_
              intro i hm; rcases List.mem_cons.mp hm with rfl | hm
              · exact h.quiet hn
              · exact hrest i hm
            · exact absurd hn ho
          case withDisable b body =>
            rcases hcl ⟨b, body, rest, Or.inr hi⟩ with hn | hn
            · refine inv2_out h ho hinv ?_
              intro i hm; rcases List.mem_cons.mp hm with rfl | hm
              · exact h.quiet hn
              · exact hrest i hm
            · exact absurd hn ho
          case seq p q =>
            refine inv2_out h ho hinv ?_
            intro i hm; simp only [List.mem_cons] at hm
            rcases hm with rfl | rfl | hm
            · exact hit.1
            · exact hit.2
            · exact hrest i hm
          case tryExcept p q =>
            refine inv2_out h ho hinv ?_
            intro i hm; simp only [List.mem_cons] at hm
            rcases hm with rfl | rfl | hm
            · exact hit.1
            · exact hit.2
            · exact hrest i hm
          case read k =>
            refine inv2_out h ho hinv ?_
            intro i hm; simp only [List.mem_cons] at hm
            rcases hm with rfl | hm
            · exact hit _
            · exact hrest i hm
        case handler p =>
          simp only [Option.some.injEq] at hs; subst hs
          exact inv2_out h ho hinv hrest
        case acq b s body =>
          subst hit
          simp only at hs
          split at hs
          · rename_i hn
            rcases hn with hn | hn
            · simp only [Option.some.injEq] at hs; subst hs
              exact inv2_take h hn hinv (Or.inr (Or.inl ⟨b, body, rest, rfl, hrest⟩))
            · exact absurd hn ho
          · simp at hs

theorem inv2_runs {v : Bool} {c c' : Config} {ts : List ℕ} (h : Inv2 v c) (hcl : CleanRun c ts)
    (hs : runs c ts = some c') : Inv2 v c' := by
  induction ts generalizing c with
  | nil => simp only [runs, Option.some.injEq] at hs; exact hs ▸ h
  | cons t ts ih =>
    simp only [runs] at hs
    cases hst : step c t with
    | none => simp [hst] at hs
    | some d => simp [hst] at hs; exact ih (inv2_step h hcl.1 hst) (hcl.2 d hst) hs

end DiffeRT2d.Approx
