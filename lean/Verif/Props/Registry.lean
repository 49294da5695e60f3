import Verif.RegistryLemmas

/-! # Properties C18–C26: registries and forks -/

set_option autoImplicit false

namespace Verif.Props.Registry
open Verif Verif.Registry

variable {F C : Type}

/-! ## Specification: what each state holder has been told -/

/-- One registration. -/
structure Reg (F C : Type) where
  f : F
  cls : Option C
  high : Bool

/-- The two kinds of registrations. -/
inductive Kind where
  | ser
  | deser

/-- The registrations that an operation makes, and where. -/
def registrations : Kind → Op F C → Option (Nat × List (Reg F C))
  | .ser, .setSer f cls hp i => some (i, cls.map fun c => ⟨f, c, hp⟩)
  | .deser, .setDeser f cls hp i => some (i, cls.map fun c => ⟨f, c, hp⟩)
  | _, _ => none

/-- What is known about the holders after a history: the fork they belong to and
the registrations they see.  Registrations are seen by all holders of the fork; a
new holder sees what the holder sees from which it is made. -/
structure View (F C : Type) where
  owner : List Nat
  seen : Nat → List (Reg F C)

/-- The effect of one operation on the view. -/
def View.step (kind : Kind) (v : View F C) (op : Op F C) : View F C :=
  match op with
  | .fork i =>
    if i < v.owner.length then
      ⟨v.owner ++ [v.owner.length], fun k => if k = v.owner.length then v.seen i else v.seen k⟩
    else v
  | .subclass i => match v.owner[i]? with
    | some o => ⟨v.owner ++ [o], fun k => if k = v.owner.length then v.seen i else v.seen k⟩
    | none => v
  | op => match registrations kind op with
    | some (j, rs) =>
      ⟨v.owner, fun k => if v.owner[j]? = v.owner[k]? then v.seen k ++ rs else v.seen k⟩
    | none => v

/-- The view after a history. -/
def view (kind : Kind) (ops : List (Op F C)) : View F C :=
  ops.foldl (View.step kind) ⟨[0], fun _ => []⟩

/-- The function registered last under a name. -/
def latest (W : World C) (rs : List (Reg F C)) (name : PyStr) : Option F :=
  (rs.reverse.find? fun r => W.key r.cls == name).map (·.f)

/-- The superclass whose (de)serializer is used: the one registered last with high
priority, otherwise the one registered first with low priority. -/
def chosenParent (W : World C) (rs : List (Reg F C)) (c : C) : Option C :=
  let sup (high : Bool) (r : Reg F C) : Option C :=
    if r.high = high then r.cls.filter fun p => W.sub c p == some true else none
  (rs.reverse.findSome? (sup true)).or (rs.findSome? (sup false))

/-- The function for a class: the one registered for its own name, otherwise that
of the chosen superclass. -/
def dispatch1 (W : World C) (rs : List (Reg F C)) (c : C) : Option F :=
  (latest W rs (W.regName c)).or ((chosenParent W rs c).bind fun p => latest W rs (W.regName p))

/-- The same, with the supertype of a `NewType` as the last resort. -/
def dispatch (W : World C) (rs : List (Reg F C)) (c : C) : Option F :=
  (dispatch1 W rs c).or ((W.supertype c).bind (dispatch1 W rs))

/-- Looking up. -/
def get (kind : Kind) (W : World C) (h : Heap F C) (i : Nat) (c : C) :
    Except ErrKind (Option F) :=
  match kind with
  | .ser => getSer W h i c
  | .deser => getDeser W h i c

/-! ## The registry of one holder -/

/-- The registry that a list of registrations makes. -/
def build (W : World C) (rs : List (Reg F C)) : Table F C :=
  rs.foldl (fun t r => setLizer1 W r.f r.high t r.cls) Table.empty

theorem build_append (W : World C) (rs : List (Reg F C)) (f : F) (cls : List (Option C))
    (hp : Bool) :
    build W (rs ++ cls.map fun c => ⟨f, c, hp⟩) = setLizer W f cls hp (build W rs) := by
  simp only [build, List.foldl_append, setLizer, List.foldl_map]

theorem build_snoc (W : World C) (rs : List (Reg F C)) (r : Reg F C) :
    build W (rs ++ [r]) = setLizer1 W r.f r.high (build W rs) r.cls := by
  simp only [build, List.foldl_append, List.foldl_cons, List.foldl_nil]

theorem snoc_induction {α : Type} {P : List α → Prop} (h0 : P [])
    (h1 : ∀ l a, P l → P (l ++ [a])) (l : List α) : P l := by
  rw [← List.reverse_reverse l]
  induction l.reverse with
  | nil => exact h0
  | cons a l ih => rw [List.reverse_cons]; exact h1 _ _ ih

theorem build_lizers (W : World C) (rs : List (Reg F C)) (n : PyStr) :
    (build W rs).lizers n = latest W rs n := by
  induction rs using snoc_induction with
  | h0 => rfl
  | h1 rs r ih =>
    rw [build_snoc, setLizer1_lizers, ih]
    unfold latest
    simp only [List.reverse_append, List.reverse_cons, List.reverse_nil, List.nil_append,
      List.cons_append, List.find?_cons]
    by_cases h : n = W.key r.cls
    · rw [if_pos h, beq_iff_eq.2 h.symm]; rfl
    · have : (W.key r.cls == n) = false := by
        rw [beq_eq_false_iff_ne]; exact fun he => h he.symm
      rw [if_neg h, this]

theorem build_classes (W : World C) (rs : List (Reg F C)) :
    (build W rs).classes =
      (rs.reverse.filterMap fun r => if r.high = true then r.cls else none) ++
      (rs.filterMap fun r => if r.high = false then r.cls else none) := by
  induction rs using snoc_induction with
  | h0 => rfl
  | h1 rs r ih =>
    rw [build_snoc]
    obtain ⟨f, cls, hp⟩ := r
    cases cls with
    | none => simp [setLizer1, ih]
    | some c => cases hp <;> simp [setLizer1, ih]

theorem getParents_head (W : World C) (rs : List (Reg F C)) (c : C) :
    (getParents W c (build W rs).classes).head? = chosenParent W rs c := by
  unfold getParents chosenParent
  rw [build_classes, List.filter_append, List.head?_append, List.filter_filterMap,
    List.filter_filterMap, List.head?_filterMap, List.head?_filterMap]
  congr 2 <;> funext r <;> obtain ⟨f, cls, hp⟩ := r <;> cases hp <;> cases cls <;>
    simp [Option.filter]

theorem getLizerRec_build (W : World C) (rs : List (Reg F C)) (c : C) :
    getLizerRec W (build W rs) c = .ok (dispatch1 W rs c) := by
  have hok : TableOk W (build W rs) := by
    induction rs using snoc_induction with
    | h0 => exact tableOk_empty W
    | h1 rs r ih => rw [build_snoc]; exact tableOk_setLizer1 ih _ _ _
  unfold getLizerRec dispatch1
  rw [lookupName_eq, build_lizers]
  cases latest W rs (W.regName c) with
  | some f => rfl
  | none =>
    rw [Option.none_or, ← getParents_head]
    unfold getLizerByParents
    cases hp : getParents W c (build W rs).classes with
    | nil => rfl
    | cons p ps =>
      simp only [List.head?_cons, Option.bind_some]
      rw [lookupName_eq, build_lizers]
      have hm : p ∈ (build W rs).classes := by
        have : p ∈ getParents W c (build W rs).classes := by rw [hp]; simp
        exact (List.mem_filter.1 this).1
      have := hok p hm
      rw [build_lizers] at this
      cases hl : latest W rs (W.regName p) with
      | some f => rfl
      | none => rw [hl] at this; cases this

theorem getLizer_build (W : World C) (rs : List (Reg F C)) (c : C) :
    getLizer W (build W rs) c = .ok (dispatch W rs c) := by
  unfold getLizer dispatch
  rw [getLizerRec_build]
  cases dispatch1 W rs c with
  | some f => rfl
  | none =>
    simp only [Option.none_or]
    cases W.supertype c with
    | none => rfl
    | some s => exact getLizerRec_build W rs s

variable [DecidableEq C]

/-- The registry of a holder. -/
def table (kind : Kind) (h : Heap F C) (i : Nat) : Option (Table F C) :=
  match kind with
  | .ser => serTable h i
  | .deser => deserTable h i

/-- The change an operation makes. -/
def effect (kind : Kind) (W : World C) (op : Op F C) : Table F C → Table F C :=
  match kind with
  | .ser => serEffect W op
  | .deser => deserEffect W op

theorem step_table {kind : Kind} {W : World C} {h : Heap F C} {os : List Nat} (hi : Inv W h os)
    (op : Op F C) {i : Nat} (hlt : i < os.length) :
    table kind (step W h op) i =
      if os[op.target]? = os[i]? then (table kind h i).map (effect kind W op)
      else table kind h i := by
  cases kind
  · exact step_serTable hi op hlt
  · exact step_deserTable hi op hlt

omit [DecidableEq C] in
theorem get_of_table {kind : Kind} {W : World C} {h : Heap F C} {i : Nat} {c : C}
    {t : Table F C} (ht : table kind h i = some t) : get kind W h i c = getLizer W t c := by
  cases kind
  · simp only [table, serTable, Option.map_eq_some_iff] at ht
    obtain ⟨x, h1, h2⟩ := ht
    simp only [get, getSer, h1, h2]
  · simp only [table, deserTable, Option.map_eq_some_iff] at ht
    obtain ⟨x, h1, h2⟩ := ht
    simp only [get, getDeser, h1, h2]

omit [DecidableEq C] in
theorem get_of_no_table {kind : Kind} {W : World C} {h : Heap F C} {i : Nat} {c : C}
    (ht : table kind h i = none) : get kind W h i c = .ok none := by
  cases kind
  · simp only [table, serTable, Option.map_eq_none_iff] at ht
    simp only [get, getSer, ht]
  · simp only [table, deserTable, Option.map_eq_none_iff] at ht
    simp only [get, getDeser, ht]

theorem step_new_table {kind : Kind} {W : World C} {h : Heap F C} {os : List Nat}
    (hi : Inv W h os) {i : Nat} (hlt : i < os.length) (op : Op F C)
    (hop : op = .fork i ∨ op = .subclass i) :
    table kind (step W h op) os.length = table kind h i := by
  have hlt' : i < h.holders.length := by rw [hi.ser.len]; exact hlt
  obtain ⟨x, hx⟩ : ∃ y, h.holders[i]? = some y := ⟨_, List.getElem?_eq_getElem hlt'⟩
  have hser := hi.ser.lt i x hx
  have hdeser := hi.deser.lt i x hx
  rcases hop with rfl | rfl
  · cases kind
    · simp only [table, serTable, step, Op.target, hx, forkOp, ← hi.ser.len,
        List.getElem?_concat_length, Option.map_some, getD_snoc_eq]
    · simp only [table, deserTable, step, Op.target, hx, forkOp, ← hi.ser.len,
        List.getElem?_concat_length, Option.map_some, getD_snoc_eq]
  · cases kind
    · simp only [table, serTable, step, Op.target, hx, ← hi.ser.len,
        List.getElem?_concat_length, Option.map_some]
    · simp only [table, deserTable, step, Op.target, hx, ← hi.ser.len,
        List.getElem?_concat_length, Option.map_some]

/-- The heap agrees with the view. -/
structure Agrees (kind : Kind) (W : World C) (h : Heap F C) (v : View F C) : Prop where
  inv : Inv W h v.owner
  tab : ∀ i, i < v.owner.length → table kind h i = some (build W (v.seen i))

theorem agrees_step {kind : Kind} {W : World C} {h : Heap F C} {v : View F C}
    (ha : Agrees kind W h v) (op : Op F C) : Agrees kind W (step W h op) (v.step kind op) := by
  have howner : (v.step kind op).owner = ownersStep v.owner op := by
    cases op with
    | fork j => simp only [View.step, ownersStep]; split <;> rfl
    | subclass j => simp only [View.step, ownersStep]; cases v.owner[j]? <;> rfl
    | _ => cases kind <;> rfl
  refine ⟨howner ▸ inv_step ha.inv op, ?_⟩
  have old : ∀ i, i < v.owner.length →
      table kind (step W h op) i = some (build W ((v.step kind op).seen i)) := by
    intro i hlt
    rw [step_table ha.inv op hlt, ha.tab i hlt]
    have same : ∀ {P : Prop} [Decidable P] {g : Table F C → Table F C} {t : Table F C}, g = id →
        (if P then (some t).map g else some t) = some t := by
      intro P _ g t hg; subst hg; split <;> rfl
    cases op with
    | setSer f cls hp j =>
      cases kind with
      | ser =>
        show (if v.owner[j]? = v.owner[i]? then _ else _) = some (build W
          (if v.owner[j]? = v.owner[i]? then v.seen i ++ cls.map (fun c => ⟨f, c, hp⟩)
            else v.seen i))
        by_cases he : v.owner[j]? = v.owner[i]?
        · rw [if_pos he, if_pos he, build_append]; rfl
        · rw [if_neg he, if_neg he]
      | deser => exact same rfl
    | setDeser f cls hp j =>
      cases kind with
      | deser =>
        show (if v.owner[j]? = v.owner[i]? then _ else _) = some (build W
          (if v.owner[j]? = v.owner[i]? then v.seen i ++ cls.map (fun c => ⟨f, c, hp⟩)
            else v.seen i))
        by_cases he : v.owner[j]? = v.owner[i]?
        · rw [if_pos he, if_pos he, build_append]; rfl
        · rw [if_neg he, if_neg he]
      | ser => exact same rfl
    | setVal f cls j => cases kind <;> exact same rfl
    | announce c n j => cases kind <;> exact same rfl
    | suppressWarnings b j => cases kind <;> exact same rfl
    | suppressWarning c j => cases kind <;> exact same rfl
    | fork j =>
      have : (v.step kind (.fork j)).seen i = v.seen i := by
        simp only [View.step]
        split
        · simp only; rw [if_neg (by omega)]
        · rfl
      rw [this]
      cases kind <;> exact same rfl
    | subclass j =>
      have : (v.step kind (.subclass j)).seen i = v.seen i := by
        simp only [View.step]
        split
        · simp only; rw [if_neg (by omega)]
        · rfl
      rw [this]
      cases kind <;> exact same rfl
  intro i hi
  by_cases hlt : i < v.owner.length
  · exact old i hlt
  · -- a new holder
    cases op with
    | fork j =>
      by_cases hj : j < v.owner.length
      · have hst : v.step kind (.fork j) = ⟨v.owner ++ [v.owner.length],
            fun k => if k = v.owner.length then v.seen j else v.seen k⟩ := by
          simp only [View.step, if_pos hj]
        rw [hst] at hi ⊢
        simp only [List.length_append, List.length_cons, List.length_nil] at hi
        have : i = v.owner.length := by omega
        subst this
        rw [step_new_table ha.inv hj _ (.inl rfl), ha.tab j hj]
        simp
      · have hst : v.step kind (.fork j) = v := by simp only [View.step, if_neg hj]
        rw [hst] at hi
        exact absurd hi hlt
    | subclass j =>
      by_cases hj : j < v.owner.length
      · have hst : v.step kind (.subclass j) = ⟨v.owner ++ [v.owner[j]],
            fun k => if k = v.owner.length then v.seen j else v.seen k⟩ := by
          simp only [View.step, List.getElem?_eq_getElem hj]
        rw [hst] at hi ⊢
        simp only [List.length_append, List.length_cons, List.length_nil] at hi
        have : i = v.owner.length := by omega
        subst this
        rw [step_new_table ha.inv hj _ (.inr rfl), ha.tab j hj]
        simp
      · have hst : v.step kind (.subclass j) = v := by
          simp only [View.step, List.getElem?_eq_none (show v.owner.length ≤ j by omega)]
        rw [hst] at hi
        exact absurd hi hlt
    | setSer f cls hp j =>
      cases kind <;> exact absurd (by simpa [howner, ownersStep] using hi) hlt
    | setDeser f cls hp j =>
      cases kind <;> exact absurd (by simpa [howner, ownersStep] using hi) hlt
    | setVal f cls j => cases kind <;> exact absurd (by simpa [howner, ownersStep] using hi) hlt
    | announce c n j => cases kind <;> exact absurd (by simpa [howner, ownersStep] using hi) hlt
    | suppressWarnings b j =>
      cases kind <;> exact absurd (by simpa [howner, ownersStep] using hi) hlt
    | suppressWarning c j =>
      cases kind <;> exact absurd (by simpa [howner, ownersStep] using hi) hlt

theorem agrees_from {kind : Kind} {W : World C} (ops : List (Op F C)) :
    ∀ {h : Heap F C} {v : View F C}, Agrees kind W h v →
      Agrees kind W (run W h ops) (ops.foldl (View.step kind) v) := by
  induction ops with
  | nil => intro h v ha; exact ha
  | cons op ops ih => intro h v ha; exact ih (agrees_step ha op)

theorem agrees (kind : Kind) (W : World C) (ops : List (Op F C)) :
    Agrees kind W (run W Heap.init ops) (view kind ops) := by
  refine agrees_from ops ⟨inv_init W, ?_⟩
  intro i hi
  simp only [List.length_cons, List.length_nil] at hi
  have : i = 0 := by omega
  subst this
  cases kind <;> rfl

/-! ## C19, C20 – dispatch -/

/-- C19 (and all of C18, C20, C22 in one): after every history of registrations,
forks and derived classes, looking up a class gives the function that the
registrations seen by the holder determine: that of its own name if there is one,
otherwise that of the superclass registered last with high priority, otherwise
that of the superclass registered first with low priority. -/
theorem lookup_follows_registrations (kind : Kind) (W : World C) (ops : List (Op F C)) (i : Nat)
    (hi : i < (view kind ops).owner.length) (c : C) :
    get kind W (run W Heap.init ops) i c = .ok (dispatch W ((view kind ops).seen i) c) := by
  rw [get_of_table ((agrees kind W ops).tab i hi)]
  exact getLizer_build W _ c

/-- C20: looking up never fails, whatever has been registered. -/
theorem lookup_never_fails (kind : Kind) (W : World C) (ops : List (Op F C)) (i : Nat) (c : C) :
    ∃ r, get kind W (run W Heap.init ops) i c = .ok r := by
  cases ht : table kind (run W Heap.init ops) i with
  | none => exact ⟨_, get_of_no_table ht⟩
  | some t =>
    rw [get_of_table ht]
    have hlt : i < (run W Heap.init ops).holders.length := by
      cases kind
      · simp only [table, serTable, Option.map_eq_some_iff] at ht
        obtain ⟨x, h1, _⟩ := ht
        exact lt_of_get h1
      · simp only [table, deserTable, Option.map_eq_some_iff] at ht
        obtain ⟨x, h1, _⟩ := ht
        exact lt_of_get h1
    have ha := agrees kind W ops
    rw [ha.inv.ser.len] at hlt
    rw [ha.tab i hlt] at ht
    injection ht with ht
    subst ht
    exact ⟨_, getLizer_build W _ c⟩

/-- C20 for validators. -/
theorem validator_lookup_never_fails (W : World C) (ops : List (Op F C)) (i : Nat) (c : C) :
    ∃ r, getVal W (run W Heap.init ops) i c = .ok r := by
  unfold getVal
  split
  · next x hx =>
    have hi := inv_run W ops
    refine getLizer_ok ?_ c
    rcases mem_getD (l := (run W Heap.init ops).vals) (i := x.val) (d := Table.empty) with h | h
    · exact hi.valsOk _ h
    · rw [h]; exact tableOk_empty W
  · exact ⟨_, rfl⟩

/-! ## C18 – registered functions are used -/

/-- The operation that registers a function for one class. -/
def setOne (kind : Kind) (f : F) (c : C) (hp : Bool) (i : Nat) : Op F C :=
  match kind with
  | .ser => .setSer f [some c] hp i
  | .deser => .setDeser f [some c] hp i

omit [DecidableEq C] in
theorem setOne_target (kind : Kind) (f : F) (c : C) (hp : Bool) (i : Nat) :
    (setOne kind f c hp i).target = i := by cases kind <;> rfl

omit [DecidableEq C] in
theorem view_owner_append (kind : Kind) (ops ops' : List (Op F C)) {k : Nat}
    (hk : k < (view kind ops).owner.length) :
    (view kind (ops ++ ops')).owner[k]? = (view kind ops).owner[k]? := by
  induction ops' using snoc_induction with
  | h0 => rw [List.append_nil]
  | h1 l op ih =>
    rw [← List.append_assoc]
    have hv : view kind (ops ++ l ++ [op]) = (view kind (ops ++ l)).step kind op := by
      simp [view]
    rw [hv, ← ih]
    have hlt : k < (view kind (ops ++ l)).owner.length := by
      rw [List.getElem?_eq_getElem hk] at ih
      exact lt_of_get ih
    cases op <;> cases kind <;> simp only [View.step, registrations] <;> try rfl
    all_goals split
    all_goals first | rfl | exact List.getElem?_append_left hlt

omit [DecidableEq C] in
theorem View.step_quiet {kind : Kind} {v : View F C} {op : Op F C}
    (hn : registrations kind op = none) {i : Nat} (hi : i < v.owner.length) :
    (v.step kind op).seen i = v.seen i := by
  cases op with
  | fork j =>
    simp only [View.step]
    split
    · simp only; rw [if_neg (by omega)]
    · rfl
  | subclass j =>
    simp only [View.step]
    split
    · simp only; rw [if_neg (by omega)]
    · rfl
  | _ => cases kind <;> first | rfl | cases hn

omit [DecidableEq C] in
theorem View.step_register {kind : Kind} {v : View F C} {op : Op F C} {j : Nat}
    {rs : List (Reg F C)} (hreg : registrations kind op = some (j, rs)) :
    v.step kind op = ⟨v.owner, fun k =>
      if v.owner[j]? = v.owner[k]? then v.seen k ++ rs else v.seen k⟩ := by
  cases op <;> cases kind <;> cases hreg <;> rfl

/-- C18: a function registered for a class in some fork is the one that is found
for that class, as long as no function is registered again under that name in the
same fork, whatever else happens in between. -/
theorem registered_function_used (kind : Kind) (W : World C) (pre post : List (Op F C)) (f : F)
    (c : C) (hp : Bool) (i : Nat) (hi : i < (view kind pre).owner.length)
    (hpost : ∀ op ∈ post, ∀ j rs, registrations kind op = some (j, rs) →
      (view kind (pre ++ setOne kind f c hp i :: post)).owner[j]? =
        (view kind (pre ++ setOne kind f c hp i :: post)).owner[i]? →
      ∀ r ∈ rs, W.key r.cls ≠ W.regName c) :
    get kind W (run W Heap.init (pre ++ setOne kind f c hp i :: post)) i c = .ok (some f) := by
  have key : latest W ((view kind (pre ++ setOne kind f c hp i :: post)).seen i) (W.regName c) =
      some f ∧ i < (view kind (pre ++ setOne kind f c hp i :: post)).owner.length := by
    induction post using snoc_induction with
    | h0 =>
      have hv : view kind (pre ++ [setOne kind f c hp i]) =
          (view kind pre).step kind (setOne kind f c hp i) := by simp [view]
      have hreg : registrations kind (setOne kind f c hp i) = some (i, [⟨f, some c, hp⟩]) := by
        cases kind <;> rfl
      have hs := View.step_register (v := view kind pre) hreg
      have e : latest W ((view kind pre).seen i ++ [⟨f, some c, hp⟩]) (W.regName c) = some f := by
        have hk : W.key (some c) = W.regName c := rfl
        unfold latest
        rw [List.reverse_append, List.reverse_singleton, List.singleton_append,
          List.find?_cons_of_pos (by rw [beq_iff_eq]; exact hk)]
        rfl
      refine ⟨?_, ?_⟩
      · rw [hv, hs]
        simp only [if_true]
        exact e
      · rw [hv, hs]
        exact hi
    | h1 l op ih =>
      have hv : view kind (pre ++ setOne kind f c hp i :: (l ++ [op])) =
          (view kind (pre ++ setOne kind f c hp i :: l)).step kind op := by simp [view]
      have hlt0 : ∀ l, i < (view kind (pre ++ l)).owner.length := by
        intro l
        have := view_owner_append kind pre l hi
        rw [List.getElem?_eq_getElem hi] at this
        exact lt_of_get this
      have howner : ∀ k, k < (view kind (pre ++ setOne kind f c hp i :: l)).owner.length →
          (view kind (pre ++ setOne kind f c hp i :: (l ++ [op]))).owner[k]? =
          (view kind (pre ++ setOne kind f c hp i :: l)).owner[k]? := by
        intro k hk
        have := view_owner_append kind (pre ++ setOne kind f c hp i :: l) [op] hk
        simpa using this
      have ih' := ih (by
        intro op' hop' j rs hreg hown
        refine hpost op' (by simp [hop']) j rs hreg ?_
        have h2 := howner i (hlt0 _)
        have h1 : j < (view kind (pre ++ setOne kind f c hp i :: l)).owner.length := by
          rw [List.getElem?_eq_getElem (hlt0 _)] at hown
          exact lt_of_get hown
        rw [h2, howner j h1]
        exact hown)
      refine ⟨?_, hlt0 _⟩
      have hlast := hpost op (by simp)
      have hwi := howner i (hlt0 _)
      cases hreg : registrations kind op with
      | none => rw [hv, View.step_quiet hreg ih'.2]; exact ih'.1
      | some jr =>
        obtain ⟨j, rs⟩ := jr
        have hseen := View.step_register (v := view kind (pre ++ setOne kind f c hp i :: l)) hreg
        rw [hv, hseen]
        simp only
        split
        · next hsame =>
          have hne := hlast j rs hreg (by rw [hv, hseen]; exact hsame)
          have hnot : ∀ r ∈ rs.reverse, (W.key r.cls == W.regName c) = false := by
            intro r hr
            rw [beq_eq_false_iff_ne]
            exact hne r (List.mem_reverse.1 hr)
          have : rs.reverse.find? (fun r => W.key r.cls == W.regName c) = none := by
            rw [List.find?_eq_none]
            intro r hr
            rw [hnot r hr]; simp
          have ih1 := ih'.1
          unfold latest at ih1 ⊢
          rw [List.reverse_append, List.find?_append, this, Option.none_or]
          exact ih1
        · exact ih'.1
  rw [lookup_follows_registrations kind W _ i key.2]
  simp only [dispatch, dispatch1, key.1, Option.some_or]

/-! ## Concrete classes for the examples -/

/-- Five classes of the module `m`. -/
inductive Ex where
  | object
  | animal
  | dog
  | Foo
  | foo
  deriving DecidableEq

/-- Their names and subclass relation. -/
def exWorld : World Ex where
  attrs
    | .object => ⟨some "object".toList, some "object".toList, none, [], some "builtins".toList⟩
    | .animal => ⟨some "Animal".toList, some "Animal".toList, none, [], some "m".toList⟩
    | .dog => ⟨some "Dog".toList, some "Dog".toList, none, [], some "m".toList⟩
    | .Foo => ⟨some "Foo".toList, some "Foo".toList, none, [], some "m".toList⟩
    | .foo => ⟨some "foo".toList, some "foo".toList, none, [], some "m".toList⟩
  sub
    | .dog, .animal => some true
    | .foo, .Foo => none
    | _, .object => some true
    | a, b => some (a == b)
  supertype _ := none

/-- Functions are numbers in the examples. -/
abbrev exRun (ops : List (Op Nat Ex)) : Heap Nat Ex := run exWorld Heap.init ops

/-- C18, C19: own registration before superclass, high before low priority. -/
example :
    get .ser exWorld (exRun [.setSer 1 [some .object] false 0, .setSer 2 [some .animal] true 0,
      .setSer 3 [some .foo] true 0]) 0 .dog = .ok (some 2) ∧
    get .ser exWorld (exRun [.setSer 1 [some .object] false 0, .setSer 2 [some .animal] true 0,
      .setSer 3 [some .foo] true 0]) 0 .Foo = .ok (some 3) ∧
    get .ser exWorld (exRun [.setSer 1 [some .object] false 0, .setSer 2 [some .animal] true 0,
      .setSer 4 [some .dog] false 0]) 0 .dog = .ok (some 4) := by
  refine ⟨by rfl, by rfl, by rfl⟩

/-- The hypotheses of C18 are met: another class and another fork are registered in
between. -/
example : get .ser exWorld (exRun ([.fork 0] ++ setOne .ser 7 .dog true 0 ::
      [.setSer 8 [some .animal] true 0, .setSer 9 [some .dog] true 1])) 0 .dog = .ok (some 7) := by
  apply registered_function_used
  · decide
  · intro op hop j rs hreg hown r hr
    simp only [List.mem_cons, List.not_mem_nil, or_false] at hop
    rcases hop with rfl | rfl
    · cases hreg
      simp only [List.map_cons, List.map_nil, List.mem_singleton] at hr
      subst hr
      decide
    · cases hreg
      exact absurd hown (by decide)

/-- The validators registered in a history, and the number of holders. -/
def valHistory (ops : List (Op F C)) : Nat × List (Reg F C) :=
  ops.foldl (fun s op => match op with
    | .fork i | .subclass i => if i < s.1 then (s.1 + 1, s.2) else s
    | .setVal f cls i => if i < s.1 then (s.1, s.2 ++ cls.map fun c => ⟨f, some c, false⟩) else s
    | _ => s) (1, [])

omit [DecidableEq C] in
theorem build_setVal (W : World C) (rs : List (Reg F C)) (f : F) (cls : List C) :
    build W (rs ++ cls.map fun c => ⟨f, some c, false⟩) = setVal W f cls (build W rs) := by
  simp only [build, List.foldl_append, setVal, List.foldl_map]
  rfl

theorem vals_follow (W : World C) (ops : List (Op F C)) :
    (run W Heap.init ops).holders.length = (valHistory ops).1 ∧
    (run W Heap.init ops).vals = [build W (valHistory ops).2] := by
  induction ops using snoc_induction with
  | h0 => exact ⟨rfl, rfl⟩
  | h1 ops op ih =>
    have hinv := inv_run W ops
    have h1 : run W Heap.init (ops ++ [op]) = step W (run W Heap.init ops) op := by simp [run]
    rw [h1]
    simp only [valHistory, List.foldl_append, List.foldl_cons, List.foldl_nil] at ih ⊢
    generalize List.foldl _ _ ops = s at *
    generalize run W Heap.init ops = h at *
    obtain ⟨n, rs⟩ := s
    obtain ⟨hn, hv⟩ := ih
    simp only at hn hv
    unfold step
    by_cases hlt : op.target < n
    · obtain ⟨x, hx⟩ : ∃ x, h.holders[op.target]? = some x :=
        ⟨_, List.getElem?_eq_getElem (hn ▸ hlt)⟩
      have hx0 := (hinv.glob x (List.mem_of_getElem? hx)).1
      rw [hx]
      cases op <;> simp only [Op.target] at hlt <;>
        simp [forkOp, hn, hv, hlt, hx0, build_setVal]
    · have hx : h.holders[op.target]? = none := List.getElem?_eq_none (by omega)
      rw [hx]
      cases op <;> simp only [Op.target] at hlt <;> simp [hn, hv, hlt]

/-- Validators are found by the same rule, with low priority, in one table for all
forks: that of the own name, otherwise that of the superclass registered first. -/
theorem validator_lookup_follows_registrations (W : World C) (ops : List (Op F C)) (i : Nat)
    (hi : i < (valHistory ops).1) (c : C) :
    getVal W (run W Heap.init ops) i c = .ok (dispatch W (valHistory ops).2 c) := by
  obtain ⟨hn, hv⟩ := vals_follow W ops
  have hinv := inv_run W ops
  rw [← hn] at hi
  have hx := (hinv.glob _ (List.getElem_mem hi)).1
  simp only [getVal, List.getElem?_eq_getElem hi, hx, hv, List.getD_cons_zero]
  exact getLizer_build W _ c

/-- A validator of a superclass, registered in a fork, found outside of it. -/
example : dispatch exWorld (valHistory ([.fork 0, .setVal 1 [.animal] 1, .setVal 2 [.object] 0] :
    List (Op Nat Ex))).2 .dog = some 1 ∧
    0 < (valHistory ([.fork 0, .setVal 1 [.animal] 1] : List (Op Nat Ex))).1 := by
  refine ⟨by rfl, by decide⟩

/-! ## C21 – different classes -/

/-- C21 is false: registering a function for `m.foo` replaces the one of `m.Foo`,
because names are compared without regard to case. -/
theorem registrations_interfere :
    get .ser exWorld (exRun [.setSer 1 [some .Foo] true 0]) 0 .Foo = .ok (some 1) ∧
    get .ser exWorld (exRun [.setSer 1 [some .Foo] true 0, .setSer 2 [some .foo] true 0]) 0 .Foo =
      .ok (some 2) := by
  refine ⟨by rfl, by rfl⟩

/-- C21, what holds (missing: classes whose qualified names differ in case only):
registering a function for one class does not change the one of an explicitly
registered class of another name. -/
theorem registrations_do_not_interfere_partial (kind : Kind) (W : World C) (pre : List (Op F C))
    (f g : F) (a b : C) (hp hp' : Bool) (i : Nat) (hi : i < (view kind pre).owner.length)
    (hne : W.regName a ≠ W.regName b) :
    get kind W (run W Heap.init (pre ++ [setOne kind f b hp i])) i b = .ok (some f) ∧
    get kind W (run W Heap.init (pre ++ [setOne kind f b hp i, setOne kind g a hp' i])) i b =
      .ok (some f) := by
  constructor
  · refine registered_function_used kind W pre [] f b hp i hi ?_
    intro op hop; cases hop
  · refine registered_function_used kind W pre [_] f b hp i hi ?_
    intro op hop j rs hreg _ r hr
    simp only [List.mem_singleton] at hop
    subst hop
    cases kind <;> cases hreg <;> simp only [List.map_cons, List.map_nil, List.mem_singleton] at hr
      <;> subst hr <;> exact hne

example : exWorld.regName .dog ≠ exWorld.regName .animal := by decide

/-! ## C22 – forks and (de)serializers -/

/-- C22: operations on other forks never change what a holder uses. -/
theorem fork_isolated (kind : Kind) (W : World C) (pre post : List (Op F C)) (i : Nat)
    (hi : i < (view kind pre).owner.length)
    (hpost : ∀ op ∈ post, ∀ j rs, registrations kind op = some (j, rs) →
      (view kind (pre ++ post)).owner[j]? ≠ (view kind (pre ++ post)).owner[i]?) (c : C) :
    get kind W (run W Heap.init (pre ++ post)) i c = get kind W (run W Heap.init pre) i c := by
  have key : (view kind (pre ++ post)).seen i = (view kind pre).seen i ∧
      i < (view kind (pre ++ post)).owner.length := by
    induction post using snoc_induction with
    | h0 => rw [List.append_nil]; exact ⟨rfl, hi⟩
    | h1 l op ih =>
      have hv : view kind (pre ++ (l ++ [op])) = (view kind (pre ++ l)).step kind op := by
        simp [view]
      have hlt0 : ∀ l, i < (view kind (pre ++ l)).owner.length := by
        intro l
        have := view_owner_append kind pre l hi
        rw [List.getElem?_eq_getElem hi] at this
        exact lt_of_get this
      have howner : ∀ k, k < (view kind (pre ++ l)).owner.length →
          (view kind (pre ++ (l ++ [op]))).owner[k]? = (view kind (pre ++ l)).owner[k]? := by
        intro k hk
        have := view_owner_append kind (pre ++ l) [op] hk
        simpa using this
      have ih' := ih (by
        intro op' hop' j rs hreg hown
        refine hpost op' (by simp [hop']) j rs hreg ?_
        have h1 : j < (view kind (pre ++ l)).owner.length := by
          rw [List.getElem?_eq_getElem (hlt0 _)] at hown
          exact lt_of_get hown
        rw [howner i (hlt0 _), howner j h1]
        exact hown)
      refine ⟨?_, hlt0 _⟩
      rw [hv, ← ih'.1]
      cases hreg : registrations kind op with
      | none =>
        exact View.step_quiet hreg ih'.2
      | some jr =>
        obtain ⟨j, rs⟩ := jr
        have hseen := View.step_register (v := view kind (pre ++ l)) hreg
        have hne := hpost op (by simp) j rs hreg
        rw [hv, hseen] at hne
        rw [hseen]
        simp only at hne ⊢
        rw [if_neg hne]
  rw [lookup_follows_registrations kind W _ i key.2, lookup_follows_registrations kind W _ i hi,
    key.1]

/-- C22: a new fork starts with what its parent has at that moment. -/
theorem fork_starts_as_copy (kind : Kind) (W : World C) (ops : List (Op F C)) (i : Nat)
    (hi : i < (view kind ops).owner.length) (c : C) :
    get kind W (run W Heap.init (ops ++ [.fork i])) (view kind ops).owner.length c =
      get kind W (run W Heap.init ops) i c := by
  have hv : view kind (ops ++ [.fork i]) = (view kind ops).step kind (.fork i) := by simp [view]
  rw [lookup_follows_registrations kind W ops i hi, lookup_follows_registrations]
  · rw [hv]
    simp only [View.step, if_pos hi, if_true]
  · rw [hv]
    simp only [View.step, if_pos hi]
    simp

/-- A fork, a registration in the fork, a registration in the parent. -/
example :
    get .ser exWorld (exRun [.setSer 1 [some .dog] true 0, .fork 0, .setSer 2 [some .dog] true 1,
      .setSer 3 [some .animal] true 0]) 0 .dog = .ok (some 1) ∧
    get .ser exWorld (exRun [.setSer 1 [some .dog] true 0, .fork 0, .setSer 2 [some .dog] true 1,
      .setSer 3 [some .animal] true 0]) 1 .dog = .ok (some 2) ∧
    get .ser exWorld (exRun [.setSer 1 [some .dog] true 0, .fork 0, .setSer 2 [some .dog] true 1,
      .setSer 3 [some .animal] true 0]) 1 .animal = .ok none := by
  refine ⟨by rfl, by rfl, by rfl⟩

/-- The hypothesis of `fork_isolated` is met. -/
example (c : Ex) : get .ser exWorld (exRun ([.fork 0] ++ [.setSer 2 [some .dog] true 1])) 0 c =
    get .ser exWorld (exRun [.fork 0]) 0 c := by
  apply fork_isolated
  · decide
  · intro op hop j rs hreg
    simp only [List.mem_singleton] at hop
    subst hop
    cases hreg
    decide

/-! ## C23 – forks, validators and announced classes -/

/-- C23 is false: a validator registered in a fork is used outside of it, and a
class announced in a fork is found outside of it. -/
theorem fork_not_isolated_validators :
    getVal exWorld (exRun [.fork 0]) 0 .dog = .ok none ∧
    getVal exWorld (exRun [.fork 0, .setVal 1 [.dog] 1]) 0 .dog = .ok (some 1) ∧
    announced (exRun [.fork 0]) 0 "x".toList = none ∧
    announced (exRun [.fork 0, .announce .dog "x".toList 1]) 0 "x".toList = some .dog := by
  refine ⟨by rfl, by rfl, by rfl, by rfl⟩

/-- C23, what is true of the code instead: there is one set of validators and one
table of announced classes, common to all forks. -/
theorem validators_are_global_partial (W : World C) (ops : List (Op F C)) (i j : Nat)
    (hi : i < (owners ops).length) (hj : j < (owners ops).length) (c : C) (name : PyStr) :
    getVal W (run W Heap.init ops) i c = getVal W (run W Heap.init ops) j c ∧
    announced (run W Heap.init ops) i name = announced (run W Heap.init ops) j name := by
  have hinv := inv_run W ops
  rw [← hinv.ser.len] at hi hj
  have hx := hinv.glob _ (List.getElem_mem hi)
  have hy := hinv.glob _ (List.getElem_mem hj)
  simp only [getVal, announced, List.getElem?_eq_getElem hi, List.getElem?_eq_getElem hj, hx, hy,
    and_self]

/-- C23, another part that holds: validators and announcements leave the
(de)serializers of all holders alone. -/
theorem validators_do_not_touch_lizers_partial (kind : Kind) (W : World C) (ops : List (Op F C))
    (i j : Nat) (hi : i < (view kind ops).owner.length) (f : F) (cs : List C) (c : C) :
    get kind W (run W Heap.init (ops ++ [.setVal f cs j])) i c =
      get kind W (run W Heap.init ops) i c := by
  refine fork_isolated kind W ops [_] i hi ?_ c
  intro op hop j' rs hreg
  simp only [List.mem_singleton] at hop
  subst hop
  cases kind <;> cases hreg

example : (0 : Nat) < (owners ([.fork 0] : List (Op Nat Ex))).length ∧
    1 < (owners ([.fork 0] : List (Op Nat Ex))).length := by decide

/-! ## C24 – forks and warnings -/

omit [DecidableEq C] in
theorem flagOf_congr {hs hs' : List Holder} {os : List Nat}
    (chain : ∀ (i : Nat) (x : Holder), hs[i]? = some x → x.flag = none →
      ∃ p, x.parent = some p ∧ p < i ∧ os[p]? = os[i]?) (i : Nat) :
    (∀ (k : Nat) (x : Holder), os[k]? = os[i]? → hs[k]? = some x →
      ∃ x', hs'[k]? = some x' ∧ x'.flag = x.flag ∧ x'.parent = x.parent) →
    ∀ n n', i < n → i < n' → i < hs.length → flagOf hs n i = flagOf hs' n' i := by
  induction i using Nat.strongRecOn with
  | _ i ih =>
    intro hagree n n' hn hn' hlt
    obtain ⟨n, rfl⟩ : ∃ m, n = m + 1 := ⟨n - 1, by omega⟩
    obtain ⟨n', rfl⟩ : ∃ m, n' = m + 1 := ⟨n' - 1, by omega⟩
    obtain ⟨x, hx⟩ : ∃ x, hs[i]? = some x := ⟨_, List.getElem?_eq_getElem hlt⟩
    obtain ⟨x', hx', hf, hp⟩ := hagree i x rfl hx
    simp only [flagOf, hx, hx', hf, hp]
    cases hflag : x.flag with
    | some b => rfl
    | none =>
      obtain ⟨p, hpar, hlt', hown⟩ := chain i x hx hflag
      simp only [hpar]
      refine ih p hlt' ?_ n n' (by omega) (by omega) (by omega)
      intro k y hk hy
      exact hagree k y (hk.trans hown) hy

omit [DecidableEq C] in
theorem warns_eq {h : Heap F C} {i : Nat} {s : List PyStr} (hs : supSet h i = some s)
    (code : PyStr) : warns h i code = (!(h.flag i) && !(s.contains code)) := by
  simp only [supSet, Option.map_eq_some_iff] at hs
  obtain ⟨x, h1, h2⟩ := hs
  simp only [warns, h1, h2]

omit [DecidableEq C] in
theorem supSet_some {W : World C} {h : Heap F C} {os : List Nat} (hi : Inv W h os) {i : Nat}
    (hlt : i < os.length) : ∃ s, supSet h i = some s := by
  rw [← hi.ser.len] at hlt
  simp only [supSet, List.getElem?_eq_getElem hlt, Option.map_some]
  exact ⟨_, rfl⟩

/-- The operations that change the warnings. -/
def suppresses : Op F C → Bool
  | .suppressWarnings _ _ | .suppressWarning _ _ => true
  | _ => false

theorem warns_step {W : World C} {h : Heap F C} {os : List Nat} (hi : Inv W h os) (op : Op F C)
    {i : Nat} (hlt : i < os.length) (hop : suppresses op = true → os[op.target]? ≠ os[i]?)
    (code : PyStr) : warns (step W h op) i code = warns h i code := by
  obtain ⟨s, hs⟩ := supSet_some hi hlt
  have hs' : supSet (step W h op) i = some s := by
    rw [step_supSet hi op hlt, hs]
    split
    · next he =>
      cases op with
      | suppressWarning c k => exact absurd he (hop rfl)
      | _ => rfl
    · rfl
  rw [warns_eq hs, warns_eq hs']
  have hflag : (step W h op).flag i = h.flag i := by
    have hlt' : i < h.holders.length := by rw [hi.ser.len]; exact hlt
    symm
    refine flagOf_congr hi.chain i ?_ _ _ hlt' ?_ hlt'
    · intro k x hk hx
      obtain ⟨x', hx', -, -, -, -, -, hp, hf⟩ := step_holder_lt (W := W) (op := op) hx
      refine ⟨x', hx', ?_, hp⟩
      rcases hf with hf | ⟨b, rfl, _⟩
      · exact hf
      · exact absurd hk (hop rfl)
    · obtain ⟨x', hx', -⟩ := step_holder_lt (W := W) (op := op) (List.getElem?_eq_getElem hlt')
      exact lt_of_get hx'
  rw [hflag]

theorem run_append (W : World C) (h : Heap F C) (a b : List (Op F C)) :
    run W h (a ++ b) = run W (run W h a) b := by
  simp [run, List.foldl_append]

omit [DecidableEq C] in
theorem owners_append (a b : List (Op F C)) :
    owners (a ++ b) = b.foldl ownersStep (owners a) := by
  simp [owners, List.foldl_append]

omit [DecidableEq C] in
theorem ownersStep_get {os : List Nat} (op : Op F C) {k : Nat} (hk : k < os.length) :
    (ownersStep os op)[k]? = os[k]? := by
  cases op <;> simp only [ownersStep] <;> split <;>
    first | rfl | exact List.getElem?_append_left hk

omit [DecidableEq C] in
theorem ownersStep_len {os : List Nat} (op : Op F C) : os.length ≤ (ownersStep os op).length := by
  cases op <;> simp only [ownersStep] <;> try exact Nat.le_refl _
  all_goals split <;> simp

omit [DecidableEq C] in
theorem foldl_owners_get (ops : List (Op F C)) : ∀ {os : List Nat} {k : Nat}, k < os.length →
    (ops.foldl ownersStep os)[k]? = os[k]? := by
  induction ops with
  | nil => intro os k _; rfl
  | cons op ops ih =>
    intro os k hk
    rw [List.foldl_cons, ih (Nat.lt_of_lt_of_le hk (ownersStep_len op)), ownersStep_get op hk]

/-- C24: suppressing warnings in other forks never changes whether a holder warns. -/
theorem warnings_isolated (W : World C) (pre post : List (Op F C)) (i : Nat)
    (hi : i < (owners pre).length)
    (hpost : ∀ op ∈ post, suppresses op = true →
      (owners (pre ++ post))[op.target]? ≠ (owners (pre ++ post))[i]?) (code : PyStr) :
    warns (run W Heap.init (pre ++ post)) i code = warns (run W Heap.init pre) i code := by
  rw [run_append]
  rw [owners_append] at hpost
  have gen : ∀ (post : List (Op F C)) (h : Heap F C) (os : List Nat), Inv W h os → i < os.length →
      (∀ op ∈ post, suppresses op = true →
        (post.foldl ownersStep os)[op.target]? ≠ (post.foldl ownersStep os)[i]?) →
      warns (run W h post) i code = warns h i code := by
    intro post
    induction post with
    | nil => intro h os _ _ _; rfl
    | cons op post ih =>
      intro h os hinv hlt hp
      have hlt' := Nat.lt_of_lt_of_le hlt (ownersStep_len op)
      have h1 := ih (step W h op) (ownersStep os op) (inv_step hinv op) hlt' (by
        intro op' hop'; exact hp op' (List.mem_cons_of_mem _ hop'))
      show warns (run W (step W h op) post) i code = _
      rw [h1]
      refine warns_step hinv op hlt ?_ code
      intro hs he
      refine hp op (by simp) hs ?_
      rw [List.foldl_cons, foldl_owners_get post hlt', ownersStep_get op hlt]
      have hlt2 : op.target < os.length := by
        rw [List.getElem?_eq_getElem hlt] at he
        exact lt_of_get he
      rw [foldl_owners_get post (Nat.lt_of_lt_of_le hlt2 (ownersStep_len op)),
        ownersStep_get op hlt2]
      exact he
  exact gen post _ _ (inv_run W pre) hi hpost

/-- C24: a fork starts with its parent's settings. -/
theorem fork_inherits_warnings (W : World C) (ops : List (Op F C)) (i : Nat)
    (hi : i < (owners ops).length) (code : PyStr) :
    warns (run W Heap.init (ops ++ [.fork i])) (owners ops).length code =
      warns (run W Heap.init ops) i code := by
  have hinv := inv_run W ops
  rw [run_append]
  rw [← hinv.ser.len] at hi ⊢
  generalize run W Heap.init ops = h at *
  have hx := List.getElem?_eq_getElem hi
  simp only [run, List.foldl_cons, List.foldl_nil, step, Op.target, hx, forkOp, warns,
    List.getElem?_concat_length, getD_snoc_eq]
  congr 2
  simp only [Heap.flag, List.length_append, List.length_cons, List.length_nil, flagOf,
    List.getElem?_concat_length]

/-- The parent keeps warning when the fork is silenced. -/
example : warns (exRun [.fork 0, .suppressWarnings true 1]) 0 "c".toList = true ∧
    warns (exRun [.fork 0, .suppressWarnings true 1]) 1 "c".toList = false ∧
    warns (exRun [.suppressWarning "c".toList 0, .fork 0]) 1 "c".toList = false := by
  refine ⟨by rfl, by rfl, by rfl⟩

example : warns (exRun ([.fork 0] ++ [.suppressWarnings true 1])) 0 "c".toList =
    warns (exRun [.fork 0]) 0 "c".toList := by
  apply warnings_isolated
  · decide
  · intro op hop _
    simp only [List.mem_singleton] at hop
    subst hop
    decide

/-! ## C25 – suppressed warnings -/

/-- C25: a suppressed code stays suppressed. -/
theorem suppressed_code_never_emitted (W : World C) (pre post : List (Op F C)) (i : Nat)
    (hi : i < (owners pre).length) (code : PyStr) :
    warns (run W Heap.init (pre ++ .suppressWarning code i :: post)) i code = false := by
  have gen : ∀ (post : List (Op F C)) (h : Heap F C) (os : List Nat), Inv W h os → i < os.length →
      (∃ s, supSet h i = some s ∧ code ∈ s) → warns (run W h post) i code = false := by
    intro post
    induction post with
    | nil =>
      rintro h os _ _ ⟨s, hs, hm⟩
      show warns h i code = false
      rw [warns_eq hs]
      simp [hm]
    | cons op post ih =>
      rintro h os hinv hlt ⟨s, hs, hm⟩
      refine ih (step W h op) _ (inv_step hinv op)
        (Nat.lt_of_lt_of_le hlt (ownersStep_len op)) ?_
      rw [step_supSet hinv op hlt, hs]
      split
      · refine ⟨_, rfl, ?_⟩
        cases op <;> simp [supEffect, hm]
      · exact ⟨s, rfl, hm⟩
  rw [show pre ++ Op.suppressWarning code i :: post = (pre ++ [.suppressWarning code i]) ++ post by
    simp, run_append]
  have hinv := inv_run W pre
  have hown : owners (pre ++ [Op.suppressWarning code i]) = owners pre := by
    simp [owners, ownersStep]
  refine gen post _ _ (inv_run W _) (by rw [hown]; exact hi) ?_
  rw [run_append]
  obtain ⟨s, hs⟩ := supSet_some hinv hi
  refine ⟨code :: s, ?_, by simp⟩
  show supSet (step W _ _) i = _
  rw [step_supSet hinv _ hi, hs]
  simp [Op.target, supEffect]

/-- C25: after `suppress_warnings(True)` nothing is emitted until the setting is
changed again on that holder. -/
theorem suppressed_all_never_emitted (W : World C) (pre post : List (Op F C)) (i : Nat)
    (hi : i < (owners pre).length) (code : PyStr)
    (hpost : ∀ op ∈ post, op ≠ .suppressWarnings false i) :
    warns (run W Heap.init (pre ++ .suppressWarnings true i :: post)) i code = false := by
  have gen : ∀ (post : List (Op F C)) (h : Heap F C),
      (∀ op ∈ post, op ≠ .suppressWarnings false i) →
      (∃ x, h.holders[i]? = some x ∧ x.flag = some true) → warns (run W h post) i code = false := by
    intro post
    induction post with
    | nil =>
      rintro h _ ⟨x, hx, hf⟩
      show warns h i code = false
      have hfl : h.flag i = true := by
        unfold Heap.flag
        obtain ⟨n, hn⟩ : ∃ n, h.holders.length = n + 1 := ⟨h.holders.length - 1, by
          have := lt_of_get hx; omega⟩
        rw [hn]
        simp only [flagOf, hx, hf]
      simp only [warns, hx, hfl]
      rfl
    | cons op post ih =>
      rintro h hp ⟨x, hx, hf⟩
      refine ih (step W h op) (fun o ho => hp o (List.mem_cons_of_mem _ ho)) ?_
      obtain ⟨x', hx', -, -, -, -, -, -, hff⟩ := step_holder_lt (W := W) (op := op) hx
      refine ⟨x', hx', ?_⟩
      rcases hff with hff | ⟨b, rfl, hb⟩
      · rw [hff, hf]
      · cases b with
        | true => exact hb
        | false => exact absurd rfl (hp _ (by simp))
  rw [show pre ++ Op.suppressWarnings true i :: post = (pre ++ [.suppressWarnings true i]) ++ post
    by simp, run_append]
  refine gen post _ hpost ?_
  rw [run_append]
  have hinv := inv_run W pre
  rw [← hinv.ser.len] at hi
  refine ⟨{ (run W Heap.init pre).holders[i] with flag := some true }, ?_, rfl⟩
  simp only [run, List.foldl_cons, List.foldl_nil] at hi ⊢
  simp [step, Op.target, hi]

example : warns (exRun [.suppressWarning "c".toList 0, .suppressWarnings true 0,
      .suppressWarnings false 0]) 0 "c".toList = false ∧
    warns (exRun [.suppressWarning "c".toList 0]) 0 "d".toList = true := by
  refine ⟨by rfl, by rfl⟩

/-! ## C26 – announced classes -/

/-- C26, without the cache (see `Verif.Props.Cache` for the effect of the cache on
repeated announcements): an announced class is found under its name from every
fork until the name is announced again, provided the name is neither that of a
builtin nor that of something that can be imported. -/
theorem announced_class_found_partial (W : World C) (M : Modules C) (pre post : List (Op F C))
    (c : C) (name : PyStr) (i j : Nat) (hi : i < (owners pre).length)
    (hj : j < (owners (pre ++ .announce c name i :: post)).length)
    (hb : M.builtin name = none) (him : M.imported name = none) (hbr : ¬ ('[' ∈ name ∧ ']' ∈ name))
    (hpost : ∀ op ∈ post, ∀ c' k, op ≠ .announce c' name k) :
    getClsFromStr M (run W Heap.init (pre ++ .announce c name i :: post)) j name = .ok c := by
  have gen : ∀ (post : List (Op F C)) (h : Heap F C) (os : List Nat), Inv W h os →
      (∀ op ∈ post, ∀ c' k, op ≠ .announce c' name k) →
      (∀ a, h.anns[0]? = some a → a.byName name = some c) →
      ∀ a, (run W h post).anns[0]? = some a → a.byName name = some c := by
    intro post
    induction post with
    | nil => intro h os _ _ ha; exact ha
    | cons op post ih =>
      intro h os hinv hp ha
      refine ih (step W h op) _ (inv_step hinv op) (fun o ho => hp o (List.mem_cons_of_mem _ ho)) ?_
      intro a
      unfold step
      cases hx : h.holders[op.target]? with
      | none => exact ha a
      | some x =>
        cases op with
        | announce c' n' k =>
          have hne : name ≠ n' := by
            rintro rfl
            exact hp _ (by simp) c' k rfl
          have hx0 := (hinv.glob x (List.mem_of_getElem? hx)).2
          simp only [hx0]
          intro he
          rw [List.getElem?_modify] at he
          cases h0 : h.anns[0]? with
          | none => rw [h0] at he; cases he
          | some a0 =>
            rw [h0] at he
            have he := Option.some.inj he
            subst he
            simp only [if_true, update, if_neg hne]
            exact ha a0 h0
        | _ => exact ha a
  have hinv := inv_run W pre
  have hpre : i < (run W Heap.init pre).holders.length := by rw [hinv.ser.len]; exact hi
  have hfinal := gen post (step W (run W Heap.init pre) (.announce c name i)) _
    (inv_step hinv _) hpost (by
      intro a
      simp only [step, Op.target, List.getElem?_eq_getElem hpre]
      have hx0 := (hinv.glob _ (List.getElem_mem hpre)).2
      simp only [hx0]
      intro he
      rw [List.getElem?_modify] at he
      cases h0 : (run W Heap.init pre).anns[0]? with
      | none => rw [h0] at he; cases he
      | some a0 =>
        rw [h0] at he
        have he := Option.some.inj he
        subst he
        simp [update])
  have hrun : run W Heap.init (pre ++ .announce c name i :: post) =
      run W (step W (run W Heap.init pre) (.announce c name i)) post := by
    rw [show pre ++ Op.announce c name i :: post = (pre ++ [.announce c name i]) ++ post by simp,
      run_append, run_append]
    rfl
  have hinv' := inv_run W (pre ++ .announce c name i :: post)
  rw [hrun] at hinv' ⊢
  have hj' := hj
  rw [← hinv'.ser.len] at hj'
  have hann : announced (run W (step W (run W Heap.init pre) (.announce c name i)) post) j name =
      some c := by
    simp only [announced, List.getElem?_eq_getElem hj']
    rw [(hinv'.glob _ (List.getElem_mem hj')).2]
    have h1 : 0 < (run W (step W (run W Heap.init pre) (.announce c name i)) post).anns.length := by
      rw [hinv'.nann]; exact Nat.zero_lt_one
    rw [List.getElem?_eq_getElem h1]
    exact hfinal _ (List.getElem?_eq_getElem h1)
  simp only [getClsFromStr, hb, if_neg hbr, getClsPlain, him, hann]

/-- No modules at all. -/
def noModules : Modules Ex := ⟨fun _ => none, fun _ => none, fun c _ => .ok c⟩

example : getClsFromStr noModules (exRun [.fork 0, .announce .dog "pets.Dog".toList 1]) 0
      "pets.Dog".toList = .ok .dog ∧
    getClsFromStr noModules (exRun [.fork 0, .announce .dog "pets.Dog".toList 1]) 0
      "pets.Cat".toList = .error .unknownClass := by
  refine ⟨by rfl, by rfl⟩

end Verif.Props.Registry
