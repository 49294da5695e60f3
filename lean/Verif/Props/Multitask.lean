import Verif.MultitaskLemmas

/-! # Properties C06–C09, C72: parallel processing of lists -/

set_option autoImplicit false

namespace Verif.Props.Multitask
open Verif Verif.Multitask

/-! ## C06 – the slices are a partition -/

/-- C06: `min(t, n)` tasks are started, no slice is empty, every index is in a
slice, and in one slice only.  (Lengths from 2^53 on are not representable as a
`float`; Python lists are smaller than that.) -/
theorem slices_partition (R : Rounding) (n t : Nat) (hn : 1 ≤ n) (ht : 1 ≤ t) (hb : n < 2 ^ 53) :
    ∃ S, startTasks R t n = .ok S ∧ S.length = min t n ∧
      (∀ p ∈ S, p.1 < p.2 ∧ p.2 ≤ n) ∧
      (∀ i < n, ∃ (k : Nat) (p : Nat × Nat), S[k]? = some p ∧ p.1 ≤ i ∧ i < p.2 ∧
        ∀ (k' : Nat) (p' : Nat × Nat), S[k']? = some p' → p'.1 ≤ i → i < p'.2 → k' = k) := by
  obtain ⟨S, h1, h2, h3⟩ := startTasks_slices (R := R) hn ht hb
  refine ⟨S, h1, h2, h3.ordered, ?_⟩
  intro i hi
  obtain ⟨k, p, hk, h4, h5⟩ := h3.cover i hi
  exact ⟨k, p, hk, h4, h5, fun k' p' hk' h6 h7 => h3.disjoint i k' k p' p hk' hk h6 h7 h4 h5⟩

/-- Seven elements for three tasks. -/
example (R : Rounding) : startTasks R 3 7 = .ok [(0, 2), (2, 4), (4, 7)] := by
  rw [startTasks_ok (by decide) (by decide) (by decide)]; rfl

/-- More tasks than elements. -/
example (R : Rounding) : startTasks R 8 2 = .ok [(0, 1), (1, 2)] := by
  rw [startTasks_ok (by decide) (by decide) (by decide)]; rfl

/-! ## C07 – parallel equals sequential -/

/-- `multi_task` returns, for every schedule, the list of the results of the
element function, if that function succeeds on every element. -/
theorem multiTask_eq_map {α ε β : Type} (fl : Rounding) (zero : β) (R : α → Except ε β → Prop)
    (g : α → β) (obj : List α) (t : Nat) (ht : 1 ≤ t) (hne : obj ≠ []) (hb : obj.length < 2 ^ 53)
    (hok : ∀ a ∈ obj, ∀ o, R a o → o = .ok (g a))
    (out : Except ErrKind (List β)) (h : MultiTask fl zero R obj t out) :
    out = .ok (obj.map g) := by
  have hn : 0 < obj.length := List.length_pos_iff.2 hne
  obtain ⟨S, h1, _, hS⟩ := startTasks_slices (R := fl) hn ht hb
  cases h with
  | error he => rw [h1] at he; cases he
  | @done S' s hst hs hj =>
    rw [h1] at hst
    injection hst with hst
    subst hst
    have hinv := (Inv.init zero R obj hS).steps hS hs
    congr 1
    apply List.ext_getElem?
    intro i
    by_cases hi : i < obj.length
    · obtain ⟨k, p, hk, h3, h4⟩ := hS.cover i hi
      obtain ⟨q, q1, q2, q3, q4, q5⟩ := hinv.joined hj hk
      have hq : ¬ q < p.2 := by
        intro hlt
        obtain ⟨a, e, ha, hr⟩ := q5 hlt
        have := hok a (List.mem_of_getElem? ha) _ hr
        cases this
      obtain ⟨a, v, ha, hr, hv⟩ := q3 i h3 (by omega)
      have := hok a (List.mem_of_getElem? ha) _ hr
      injection this with this
      rw [hv, List.getElem?_map, ha, this]
      rfl
    · rw [List.getElem?_eq_none (by rw [hinv.len]; omega),
        List.getElem?_eq_none (by rw [List.length_map]; omega)]

/-- `multi_task` on a non-empty list has an outcome whatever happens first: every
execution can be continued until all tasks are over … -/
theorem multiTask_completes {α ε β : Type} (fl : Rounding) (zero : β) (R : α → Except ε β → Prop)
    (obj : List α) (t : Nat) (ht : 1 ≤ t) (hne : obj ≠ []) (hb : obj.length < 2 ^ 53)
    (htot : ∀ a ∈ obj, ∃ o, R a o) :
    ∃ S, startTasks fl t obj.length = .ok S ∧
      ∀ s, Steps R obj (initState zero obj.length S) s →
        ∃ s', Steps R obj (initState zero obj.length S) s' ∧ Joined s' := by
  obtain ⟨S, h1, _, hS⟩ := startTasks_slices (R := fl) (List.length_pos_iff.2 hne) ht hb
  refine ⟨S, h1, fun s hs => ?_⟩
  obtain ⟨s', h2, h3, _⟩ := completes hS htot _ s hs ((Inv.init zero R obj hS).steps hS hs)
  exact ⟨s', h2, h3⟩

/-- … and no execution goes on for ever. -/
theorem multiTask_terminates {α ε β : Type} (fl : Rounding) (zero : β) (R : α → Except ε β → Prop)
    (obj : List α) (t : Nat) (ht : 1 ≤ t) (hne : obj ≠ []) (hb : obj.length < 2 ^ 53) :
    ∃ S, startTasks fl t obj.length = .ok S ∧
      ¬ ∃ run : Nat → State ε β, run 0 = initState zero obj.length S ∧
        ∀ i, Step R obj (run i) (run (i + 1)) := by
  obtain ⟨S, h1, _, hS⟩ := startTasks_slices (R := fl) (List.length_pos_iff.2 hne) ht hb
  refine ⟨S, h1, ?_⟩
  rintro ⟨run, h0, hstep⟩
  have hinv : ∀ i, Inv zero R obj S (run i) := by
    intro i
    induction i with
    | zero => rw [h0]; exact Inv.init zero R obj hS
    | succ i ih => exact ih.step hS (hstep i)
  have hdec : ∀ i, (run i).work + i ≤ (run 0).work := by
    intro i
    induction i with
    | zero => omega
    | succ i ih =>
      have := (hstep i).work_lt (hinv i)
      omega
  have := hdec ((run 0).work + 1)
  omega

theorem sequential_ok {α ε β : Type} {f : α → Except ε β} {obj : List α} {bs : List β}
    (h : sequential f obj = .ok bs) :
      (∀ a ∈ obj, ∃ b, f a = .ok b) ∧ obj.map f = bs.map Except.ok := by
  induction obj generalizing bs with
  | nil =>
    injection h with h; subst h; simp
  | cons a as ih =>
    simp only [sequential, bind, Except.bind, pure, Except.pure] at h
    cases ha : f a with
    | error e => rw [ha] at h; cases h
    | ok b =>
      rw [ha] at h
      cases hs : sequential f as with
      | error e => rw [hs] at h; cases h
      | ok cs =>
        rw [hs] at h
        injection h with h
        subst h
        obtain ⟨h1, h2⟩ := ih hs
        refine ⟨?_, by simp [ha, h2]⟩
        intro x hx
        rcases List.mem_cons.1 hx with rfl | hx
        · exact ⟨b, ha⟩
        · exact h1 x hx

/-- C07 (load): without a fork, and if the value of an element does not depend
on the number of tasks it is given, a list on which `tasks=1` succeeds has the
same result with any number of tasks and any schedule. -/
theorem parallel_load_eq_sequential {α ε β Fork : Type} (fl : Rounding) (zero : β) (default : Fork)
    (load : ElemKw Fork → α → Except ε β) (obj : List α) (tasks : Int)
    (ht : 1 ≤ tasks) (hne : obj ≠ []) (hb : obj.length < 2 ^ 53)
    (hind : ∀ t, ∀ a ∈ obj, load ⟨t, default⟩ a = load ⟨1, default⟩ a)
    (bs : List β) (hseq : ListLoad fl zero default load obj 1 default (.ok bs))
    (out : Except (ListErr ε) (List β))
    (hpar : ListLoad fl zero default load obj tasks default out) :
    out = .ok bs := by
  have hs : sequential (load ⟨1, default⟩) obj = .ok bs := by
    cases hseq with
    | seqOk _ hs => exact hs
    | parOk h => exact absurd h (by decide)
  obtain ⟨h1, h2⟩ := sequential_ok hs
  have hpar' : ∀ n : Nat, 1 ≤ n → ∀ o,
      MultiTask fl zero (fun a o => o = load ⟨tasksLeft n obj.length, default⟩ a) obj n o →
      o = .ok bs := by
    intro n hn o hm
    have hne' : Nonempty β := by
      obtain ⟨a, ha⟩ := List.exists_mem_of_ne_nil _ hne
      obtain ⟨b, _⟩ := h1 a ha
      exact ⟨b⟩
    let g : α → β := fun a => match load ⟨1, default⟩ a with
      | .ok b => b
      | .error _ => Classical.choice hne'
    have hg : ∀ a ∈ obj, load ⟨1, default⟩ a = .ok (g a) := by
      intro a ha
      obtain ⟨b, hb⟩ := h1 a ha
      simp only [g, hb]
    have := multiTask_eq_map fl zero _ g obj n hn hne hb
      (fun a ha o ho => by rw [ho, hind _ a ha, hg a ha]) o hm
    rw [this]
    congr 1
    have h3 : (obj.map g).map (Except.ok (ε := ε)) = bs.map Except.ok := by
      rw [← h2, List.map_map]
      exact List.map_congr_left (fun a ha => by simp [hg a ha])
    exact List.map_injective_iff.2 (fun x y h => by injection h) h3
  cases hpar with
  | seqOk _ hs' => rw [hs] at hs'; injection hs' with hs'; rw [hs']
  | seqErr _ hs' => rw [hs] at hs'; cases hs'
  | @parOk n cs h hn hm =>
    have := hpar' n (by omega) _ hm
    injection this with this
    rw [this]
  | @parErr n k h hn hm =>
    have := hpar' n (by omega) _ hm
    cases this
  | invalid h => omega

/-- C07 (dump): an iterable on which sequential dumping succeeds has the same
result with any number of tasks and any schedule. -/
theorem parallel_dump_eq_sequential {α ε β : Type} (fl : Rounding) (zero : β)
    (dump : α → Except ε β) (obj : List α) (tasks : Int)
    (hne : obj ≠ []) (hb : obj.length < 2 ^ 53)
    (bs : List β) (hseq : IterDump fl zero dump obj 1 (.ok bs))
    (out : Except (ListErr ε) (List β)) (hpar : IterDump fl zero dump obj tasks out) :
    out = .ok bs := by
  have hs : sequential dump obj = .ok bs := by
    cases hseq with
    | seqOk _ hs => exact hs
    | parOk h => exact absurd h (by decide)
  have hs1 : ListLoad fl zero () (fun (_ : ElemKw Unit) a => dump a) obj 1 () (.ok bs) :=
    .seqOk rfl hs
  cases hpar with
  | seqOk _ hs' => rw [hs] at hs'; injection hs' with hs'; rw [hs']
  | seqErr _ hs' => rw [hs] at hs'; cases hs'
  | @parOk n cs h hn hm =>
    exact parallel_load_eq_sequential fl zero () (fun (_ : ElemKw Unit) a => dump a) obj tasks
      (by omega) hne hb (fun _ _ _ => rfl) bs hs1 _ (.parOk (by omega) hn hm)
  | @parErr n k h hn hm =>
    have := parallel_load_eq_sequential fl zero () (fun (_ : ElemKw Unit) a => dump a) obj tasks
      (by omega) hne hb (fun _ _ _ => rfl) bs hs1 _ (.parErr (by omega) hn hm)
    cases this

/-- The hypotheses can be met: three elements and two tasks, with an outcome. -/
example : ∃ out, ListLoad Rounding.exact 0 () (fun (_ : ElemKw Unit) (a : Nat) =>
    (.ok (a + 1) : Except Unit Nat)) [4, 5, 6] 2 () out ∧ out = .ok [5, 6, 7] := by
  obtain ⟨S, h1, h2⟩ := multiTask_completes Rounding.exact 0
    (fun (a : Nat) (o : Except Unit Nat) => o = .ok (a + 1)) [4, 5, 6] 2
    (by decide) (by decide) (by decide) (fun a _ => ⟨_, rfl⟩)
  obtain ⟨s, h3, h4⟩ := h2 _ (.refl _)
  have h5 : ListLoad Rounding.exact 0 () (fun (_ : ElemKw Unit) (a : Nat) =>
    (.ok (a + 1) : Except Unit Nat)) [4, 5, 6] 2 () (.ok s.results) :=
    .parOk (n := 2) (by decide) rfl (.done h1 h3 h4)
  exact ⟨_, h5, parallel_load_eq_sequential _ _ _ _ _ _ (by decide) (by decide) (by decide)
    (fun _ _ _ => rfl) [5, 6, 7] (.seqOk rfl rfl) _ h5⟩

/-! ### Nested lists -/

/-- No list inside the document is empty, and all are of a length that Python
can have. -/
inductive Proper {α : Type} : Doc α → Prop
  | leaf (a : α) : Proper (.leaf a)
  | list {ds : List (Doc α)} (hne : ds ≠ []) (hb : ds.length < 2 ^ 53)
      (h : ∀ d ∈ ds, Proper d) : Proper (.list ds)

theorem loadSeq_go {α β : Type} {f : α → Option β} {ds : List (Doc α)} {rs : List (Doc β)}
    (h : Doc.loadSeq.go f ds = some rs) :
    ds.map (Doc.loadSeq f) = rs.map some := by
  induction ds generalizing rs with
  | nil => simp only [Doc.loadSeq.go, Option.some.injEq] at h; subst h; rfl
  | cons d ds ih =>
    simp only [Doc.loadSeq.go, Option.bind_eq_some_iff, Option.map_eq_some_iff] at h
    obtain ⟨r, hr, rs', hrs, rfl⟩ := h
    simp [hr, ih hrs]

/-- C07 (nested): documents of nested non-empty lists are loaded to the same
result with any number of tasks, with any schedule on every level. -/
theorem nested_parallel_eq_sequential {α β : Type} (fl : Rounding) (zero : Doc β)
    (f : α → Option β) (depth tasks : Nat) (ht : 1 ≤ tasks) (d : Doc α) (hd : Proper d)
    (r : Doc β) (hseq : d.loadSeq f = some r)
    (out : Except Unit (Doc β)) (h : Doc.Load fl zero f depth tasks d out) :
    out = .ok r := by
  induction depth generalizing tasks d r out with
  | zero => cases h
  | succ depth ih =>
    cases d with
    | leaf a =>
      simp only [Doc.Load] at h
      simp only [Doc.loadSeq] at hseq
      rw [h, hseq]; rfl
    | list ds =>
      simp only [Doc.Load] at h
      split at h
      · rw [h, hseq]; rfl
      · have hl : 1 ≤ tasksLeft tasks ds.length := by
          unfold tasksLeft
          simp only
          split <;> omega
        cases hd with
        | list hne hb hds =>
          have hgo := hseq
          simp only [Doc.loadSeq, Option.map_eq_some_iff] at hgo
          obtain ⟨rs, hrs, rfl⟩ := hgo
          have hmap := loadSeq_go hrs
          let g : Doc α → Doc β := fun d => (d.loadSeq f).getD zero
          have hg : ∀ d ∈ ds, d.loadSeq f = some (g d) := by
            intro d hd
            have : d.loadSeq f ∈ rs.map some := by
              rw [← hmap]; exact List.mem_map_of_mem hd
            obtain ⟨r, _, hr⟩ := List.mem_map.1 this
            simp [g, ← hr]
          have hrs' : ds.map g = rs := by
            have : (ds.map g).map some = rs.map some := by
              rw [← hmap, List.map_map]
              exact List.map_congr_left (fun d hd => by simp [hg d hd])
            exact List.map_injective_iff.2 (fun x y h => by injection h) this
          have key := multiTask_eq_map fl zero _ g ds tasks ht hne hb
            (fun d hd o ho => ih _ hl d (hds d hd) _ (hg d hd) o ho)
          rcases h with ⟨rs', hm, rfl⟩ | ⟨k, hm, rfl⟩
          · have := key _ hm
            injection this with this
            rw [this, hrs']
          · have := key _ hm
            cases this

example : Proper (Doc.list [.list [.leaf 1, .leaf 2], .leaf 3]) :=
  .list (by decide) (by decide) (by
    intro d hd
    simp only [List.mem_cons, List.not_mem_nil, or_false] at hd
    rcases hd with rfl | rfl
    · refine .list (by decide) (by decide) ?_
      intro d hd
      simp only [List.mem_cons, List.not_mem_nil, or_false] at hd
      rcases hd with rfl | rfl <;> exact .leaf _
    · exact .leaf _)

/-! ## C08 – a failing element is not reported -/

/-- Every outcome of `multi_task` on a non-empty list is a list, whatever the
elements do. -/
theorem parallel_never_raises {α ε β : Type} (fl : Rounding) (zero : β)
    (R : α → Except ε β → Prop) (obj : List α) (t : Nat) (ht : 1 ≤ t) (hne : obj ≠ [])
    (hb : obj.length < 2 ^ 53) (out : Except ErrKind (List β))
    (h : MultiTask fl zero R obj t out) :
    ∃ bs, out = .ok bs ∧ bs.length = obj.length := by
  obtain ⟨S, h1, _, hS⟩ := startTasks_slices (R := fl) (List.length_pos_iff.2 hne) ht hb
  cases h with
  | error he => rw [h1] at he; cases he
  | @done S' s hst hs hj =>
    rw [h1] at hst
    injection hst with hst
    subst hst
    exact ⟨_, rfl, ((Inv.init zero R obj hS).steps hS hs).len⟩

/-- C08 is false: an element that fails in `tasks=1` mode goes unnoticed with
`tasks=2`. -/
theorem failing_element_reported_false :
    ¬ ∀ (obj : List Nat) (load : ElemKw Unit → Nat → Except Unit Nat) (tasks : Int),
      1 < tasks → obj.length < 2 ^ 53 →
      (∃ e, ListLoad Rounding.exact 0 () load obj 1 () (.error e)) →
      ∀ out, ListLoad Rounding.exact 0 () load obj tasks () out → ∃ e, out = .error e := by
  intro hall
  have htot : ∀ a ∈ [7, 8], ∃ o, (fun (a : Nat) (o : Except Unit Nat) => o = .error ()) a o :=
    fun _ _ => ⟨_, rfl⟩
  obtain ⟨S, h1, h2⟩ := multiTask_completes Rounding.exact 0
    (fun (_ : Nat) (o : Except Unit Nat) => o = .error ()) [7, 8] 2
    (by decide) (by decide) (by decide) htot
  obtain ⟨s, h3, h4⟩ := h2 _ (.refl _)
  obtain ⟨e, he⟩ := hall [7, 8] (fun _ _ => .error ()) 2 (by decide) (by decide)
    ⟨_, .seqErr rfl rfl⟩ _ (.parOk (n := 2) (by decide) rfl (.done h1 h3 h4))
  cases he

/-- C08, what holds (missing: an exception): in every outcome each slice is
filled with the right results up to its first failing element; that element and
the rest of the slice keep the placeholder 0.  Whole slices without failing
elements are right. -/
theorem failing_element_leaves_zero_partial {α ε β : Type} (fl : Rounding) (zero : β)
    (f : α → Except ε β) (obj : List α) (t : Nat) (ht : 1 ≤ t) (hne : obj ≠ [])
    (hb : obj.length < 2 ^ 53) (bs : List β)
    (h : MultiTask fl zero (fun a o => o = f a) obj t (.ok bs)) :
    ∃ S, startTasks fl t obj.length = .ok S ∧ ∀ p ∈ S, ∀ i, p.1 ≤ i → i < p.2 →
      ((∀ j, p.1 ≤ j → j ≤ i → ∃ a v, obj[j]? = some a ∧ f a = .ok v) →
        ∃ a v, obj[i]? = some a ∧ f a = .ok v ∧ bs[i]? = some v) ∧
      ((∃ j a e, p.1 ≤ j ∧ j ≤ i ∧ obj[j]? = some a ∧ f a = .error e) →
        bs[i]? = some zero) := by
  obtain ⟨S, h1, _, hS⟩ := startTasks_slices (R := fl) (List.length_pos_iff.2 hne) ht hb
  refine ⟨S, h1, ?_⟩
  cases h with
  | @done S' s hst hs hj =>
    rw [h1] at hst
    injection hst with hst
    subst hst
    have hinv := (Inv.init zero _ obj hS).steps hS hs
    intro p hp i hi1 hi2
    obtain ⟨k, hk⟩ := List.getElem?_of_mem hp
    obtain ⟨q, q1, q2, q3, q4, q5⟩ := hinv.joined hj hk
    constructor
    · intro hall
      have hq : i < q := by
        apply Classical.byContradiction
        intro hq
        obtain ⟨a, e, ha, hr⟩ := q5 (by omega)
        obtain ⟨a', v, ha', hv⟩ := hall q q1 (by omega)
        rw [ha] at ha'
        injection ha' with ha'
        subst ha'
        rw [hv] at hr
        cases hr
      obtain ⟨a, v, ha, hr, hv⟩ := q3 i hi1 hq
      exact ⟨a, v, ha, hr.symm, hv⟩
    · rintro ⟨j, a, e, hj1, hj2, ha, he⟩
      apply q4 i _ hi2
      apply Classical.byContradiction
      intro hq
      obtain ⟨a', v, ha', hr, _⟩ := q3 j hj1 (by omega)
      rw [ha] at ha'
      injection ha' with ha'
      subst ha'
      rw [he] at hr
      cases hr

/-! ## C09 – the empty list -/

/-- C09 is false: the empty list is loaded with `tasks=1`, and a
`ZeroDivisionError` is raised for it with every higher number of tasks. -/
theorem parallel_empty_fails {α ε β Fork : Type} (fl : Rounding) (zero : β) (default fork : Fork)
    (load : ElemKw Fork → α → Except ε β) (tasks : Int) (ht : 2 ≤ tasks) :
    ListLoad fl zero default load [] 1 fork (.ok []) ∧
    ∀ out, ListLoad fl zero default load [] tasks fork out →
      out = .error (.own .zeroDivisionError) := by
  refine ⟨.seqOk rfl rfl, ?_⟩
  have hz : ∀ n, startTasks fl n ([] : List α).length = .error .zeroDivisionError :=
    fun n => startTasks_zero (.inr rfl)
  intro out h
  cases h with
  | seqOk h => omega
  | seqErr h => omega
  | invalid h => omega
  | parOk _ _ hm =>
    cases hm with
    | done h => rw [hz] at h; cases h
  | parErr _ _ hm =>
    cases hm with
    | error h => rw [hz] at h; injection h with h; rw [h]

/-- The same holds for dumping iterables. -/
theorem parallel_dump_empty_fails {α ε β : Type} (fl : Rounding) (zero : β)
    (dump : α → Except ε β) (tasks : Int) (ht : 2 ≤ tasks) :
    IterDump fl zero dump [] 1 (.ok []) ∧
    ∀ out, IterDump fl zero dump [] tasks out → out = .error (.own .zeroDivisionError) := by
  refine ⟨.seqOk (by decide) rfl, ?_⟩
  have hz : ∀ n, startTasks fl n ([] : List α).length = .error .zeroDivisionError :=
    fun n => startTasks_zero (.inr rfl)
  intro out h
  cases h with
  | seqOk h => omega
  | seqErr h => omega
  | parOk _ _ hm =>
    cases hm with
    | done h => rw [hz] at h; cases h
  | parErr _ _ hm =>
    cases hm with
    | error h => rw [hz] at h; injection h with h; rw [h]

/-- An empty list inside a list is replaced by the placeholder without any
error, when the outer list leaves at least two tasks. -/
theorem nested_empty_lost {α β : Type} (fl : Rounding) (zero : Doc β) (f : α → Option β)
    (a : α) (b : β) (hf : f a = some b) :
    Doc.loadSeq f (.list [.list [], .leaf a]) = some (.list [.list [], .leaf b]) ∧
    ∀ out, Doc.Load fl zero f 2 4 (.list [.list [], .leaf a]) out →
      out = .ok (.list [zero, .leaf b]) := by
  refine ⟨by simp [Doc.loadSeq, Doc.loadSeq.go, hf], ?_⟩
  have h1 : ∀ ds : List (Doc α), ds = [.list [], .leaf a] →
      ∀ bs, MultiTask fl zero (fun d o => o = (match d with
        | .list _ => Except.error ()
        | .leaf a => toOutcome ((f a).map .leaf))) ds 4 (.ok bs) → bs = [zero, .leaf b] := by
    rintro ds rfl bs hm
    obtain ⟨S, hS, hp⟩ := failing_element_leaves_zero_partial fl zero _ _ 4 (by decide) (by simp)
      (by simp) bs hm
    obtain ⟨_, hbs, hlen⟩ := parallel_never_raises fl zero _ _ 4 (by decide) (by simp)
      (by simp) _ hm
    injection hbs with hbs
    subst hbs
    rw [show startTasks fl 4 [Doc.list [], Doc.leaf a].length = .ok [(0, 1), (1, 2)] from
      startTasks_ok (t := 4) (n := 2) (by decide) (by decide) (by decide)] at hS
    injection hS with hS
    subst hS
    have e0 := (hp (0, 1) (by simp) 0 (by simp) (by simp)).2
      ⟨0, .list [], (), by simp, by simp, by simp, rfl⟩
    obtain ⟨a', v, h2, h3, h4⟩ := (hp (1, 2) (by simp) 1 (by simp) (by simp)).1 (by
      intro j hj1 hj2
      simp only at hj1
      have : j = 1 := by omega
      subst this
      exact ⟨.leaf a, .leaf b, by simp, by simp [hf, toOutcome]⟩)
    simp only [List.getElem?_cons_succ, List.getElem?_cons_zero, Option.some.injEq] at h2
    subst h2
    simp only [hf, Option.map_some, toOutcome, Except.ok.injEq] at h3
    subst h3
    match bs, hlen with
    | [x, y], _ =>
      simp at e0 h4
      rw [e0, h4]
  have hz : ∀ n, startTasks fl n ([] : List (Doc α)).length = .error .zeroDivisionError :=
    fun n => startTasks_zero (.inr rfl)
  have hR : ∀ d o, Doc.Load fl zero f 1 (tasksLeft 4 2) d o → d ∈ [Doc.list [], Doc.leaf a] →
      o = (match d with
        | .list _ => Except.error ()
        | .leaf a => toOutcome ((f a).map .leaf)) := by
    intro d o ho hd
    simp only [List.mem_cons, List.not_mem_nil, or_false] at hd
    rcases hd with rfl | rfl
    · rw [show tasksLeft 4 2 = 2 from rfl] at ho
      simp only [Doc.Load] at ho
      rw [if_neg (by decide)] at ho
      rcases ho with ⟨rs, hm, rfl⟩ | ⟨k, hm, rfl⟩
      · cases hm with
        | done h => rw [hz] at h; cases h
      · rfl
    · simpa [Doc.Load] using ho
  have hmono : ∀ o, MultiTask fl zero (Doc.Load fl zero f 1 (tasksLeft 4 2))
      [Doc.list [], Doc.leaf a] 4 o → MultiTask fl zero (fun d o => o = (match d with
        | .list _ => Except.error ()
        | .leaf a => toOutcome ((f a).map .leaf))) [Doc.list [], Doc.leaf a] 4 o := by
    intro o hm
    cases hm with
    | error h => exact .error h
    | @done S s h hs hj =>
      refine .done h ?_ hj
      clear hj h
      induction hs with
      | refl => exact .refl _
      | tail _ hstep ih =>
        refine .tail ih ?_
        cases hstep with
        | call hk hp hi ha hr => exact .call hk hp hi ha (hR _ _ hr (List.mem_of_getElem? ha))
        | fail hk hp hi ha hr => exact .fail hk hp hi ha (hR _ _ hr (List.mem_of_getElem? ha))
        | store hk hp => exact .store hk hp
        | finish hk hp hi => exact .finish hk hp hi
  intro out h
  simp only [Doc.Load] at h
  rw [if_neg (by decide)] at h
  rcases h with ⟨rs, hm, rfl⟩ | ⟨k, hm, rfl⟩
  · rw [h1 _ rfl rs (hmono _ hm)]
  · obtain ⟨bs, hbs, _⟩ := parallel_never_raises fl zero _ _ 4 (by decide) (by simp)
      (by simp) _ hm
    cases hbs

/-- C09, what holds (missing: the empty list): a non-empty list on which
`tasks=1` succeeds raises nothing with any number of tasks. -/
theorem parallel_accepts_partial {α ε β Fork : Type} (fl : Rounding) (zero : β)
    (default fork : Fork) (load : ElemKw Fork → α → Except ε β) (obj : List α) (tasks : Int)
    (ht : 1 ≤ tasks) (hne : obj ≠ []) (hb : obj.length < 2 ^ 53)
    (hseq : ∃ bs, ListLoad fl zero default load obj 1 fork (.ok bs))
    (out : Except (ListErr ε) (List β)) (h : ListLoad fl zero default load obj tasks fork out) :
    ∃ bs, out = .ok bs := by
  obtain ⟨bs, hseq⟩ := hseq
  have hs : sequential (load ⟨1, fork⟩) obj = .ok bs := by
    cases hseq with
    | seqOk _ hs => exact hs
    | parOk h => exact absurd h (by decide)
  cases h with
  | seqOk _ _ => exact ⟨_, rfl⟩
  | seqErr _ hs' => rw [hs] at hs'; cases hs'
  | parOk _ _ _ => exact ⟨_, rfl⟩
  | @parErr n k h hn hm =>
    obtain ⟨bs, hbs, _⟩ := parallel_never_raises fl zero _ _ n (by omega) hne hb _ hm
    cases hbs
  | invalid h => omega

/-! ## C72 – the fork is not used in parallel mode -/

/-- C72 is false: an element function that looks at its fork gets another one in
parallel mode. -/
theorem parallel_fork_ignored :
    ¬ ∀ (obj : List Nat) (load : ElemKw Bool → Nat → Except Unit Nat) (tasks : Int) (bs : List Nat)
      (fork : Bool), 1 ≤ tasks → obj ≠ [] →
      (∀ t t' f a, load ⟨t, f⟩ a = load ⟨t', f⟩ a) →
      ListLoad Rounding.exact 0 false load obj 1 fork (.ok bs) →
      ∀ out, ListLoad Rounding.exact 0 false load obj tasks fork out → out = .ok bs := by
  intro hall
  let load : ElemKw Bool → Nat → Except Unit Nat := fun kw a => .ok (if kw.fork then a else 0)
  obtain ⟨S, h1, h2⟩ := multiTask_completes Rounding.exact 0
    (fun (a : Nat) (o : Except Unit Nat) => o = load ⟨tasksLeft 2 2, false⟩ a) [7, 8] 2
    (by decide) (by decide) (by decide) (fun a _ => ⟨_, rfl⟩)
  obtain ⟨s, h3, h4⟩ := h2 _ (.refl _)
  have hm := MultiTask.done h1 h3 h4
  have e1 := hall [7, 8] load 2 [7, 8] true (by decide) (by decide) (fun _ _ _ _ => rfl)
    (.seqOk rfl rfl) _ (.parOk (n := 2) (by decide) rfl hm)
  have e2 := multiTask_eq_map Rounding.exact 0 _ (fun _ => 0) [7, 8] 2 (by decide) (by decide)
    (by decide) (fun a _ o ho => by rw [ho]; rfl) _ hm
  injection e1 with e1
  injection e2 with e2
  rw [e1] at e2
  exact absurd e2 (by decide)

/-- C72, what holds (missing: forks): the fork makes no difference if the
element function gives the same results for it and for the default state. -/
theorem parallel_fork_partial {α ε β Fork : Type} (fl : Rounding) (zero : β) (default fork : Fork)
    (load : ElemKw Fork → α → Except ε β) (obj : List α) (tasks : Int)
    (ht : 1 ≤ tasks) (hne : obj ≠ []) (hb : obj.length < 2 ^ 53)
    (hind : ∀ t, ∀ a ∈ obj, load ⟨t, default⟩ a = load ⟨1, fork⟩ a)
    (bs : List β) (hseq : ListLoad fl zero default load obj 1 fork (.ok bs))
    (out : Except (ListErr ε) (List β))
    (hpar : ListLoad fl zero default load obj tasks fork out) :
    out = .ok bs := by
  have hs : sequential (load ⟨1, fork⟩) obj = .ok bs := by
    cases hseq with
    | seqOk _ hs => exact hs
    | parOk h => exact absurd h (by decide)
  have hs' : sequential (load ⟨1, default⟩) obj = .ok bs := by
    rw [← hs]
    clear hs hpar hseq hb hne
    induction obj with
    | nil => rfl
    | cons a as ih =>
      simp only [sequential]
      rw [hind 1 a (by simp), ih (fun t x hx => hind t x (List.mem_cons_of_mem _ hx))]
  cases hpar with
  | seqOk _ hq => rw [hs] at hq; injection hq with hq; rw [hq]
  | seqErr _ hq => rw [hs] at hq; cases hq
  | parOk h hn hm =>
    exact parallel_load_eq_sequential fl zero default load obj tasks ht hne hb
      (fun t a ha => by rw [hind t a ha, hind 1 a ha]) bs (.seqOk rfl hs') _ (.parOk h hn hm)
  | parErr h hn hm =>
    have := parallel_load_eq_sequential fl zero default load obj tasks ht hne hb
      (fun t a ha => by rw [hind t a ha, hind 1 a ha]) bs (.seqOk rfl hs') _ (.parErr h hn hm)
    cases this
  | invalid h => omega

end Verif.Props.Multitask
