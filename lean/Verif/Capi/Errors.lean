import Verif.Capi.Strings

/-!
# C100: errors, memory and pointers of the C interface
-/

namespace Capi

section
variable {σ G : Type}

/-! ## Errors -/

/-- The result of functions in the case of an error. -/
def failure : Fn → Val
  | .count .. => .num 0
  | .countExtra .. => .counts 0 0
  | .validateQuery .. => .bool false
  | .delete .. => .bool false
  | .exportToFs .. => .unit
  | .unload .. => .unit
  | .applyUpdate .. => .unit
  | .addNode .. => .unit
  | .deleteNode .. => .unit
  | .addNodeLabel .. => .unit
  | .deleteNodeLabel .. => .unit
  | .addEdge .. => .unit
  | .deleteEdge .. => .unit
  | .addEdgeLabel .. => .unit
  | .deleteEdgeLabel .. => .unit
  | _ => .null

/-- The functions that return one result, or report one error. -/
def single : Fn → Bool
  | .outgoingEdges .. => false
  | .iterNext .. => false
  | _ => true

/-- What a call did to the variable for errors: nothing and a result that is not `NULL`, or an error list with at least one entry and the failure value;
without a variable nothing. -/
structure Reported (failed : Val) (err : Option Nat) (s : St σ G) (r : Val × St σ G) : Prop where
  success : r.2.vars = s.vars → (∀ c, err ≠ some c) ∨ r.1 ≠ .null
  others : ∀ c, err ≠ some c → r.2.vars c = s.vars c
  failed : ∀ c, err = some c → r.2.vars c ≠ s.vars c → r.1 = failed ∧
    ∃ p l, r.2.vars c = some p ∧ s.heap.length ≤ p ∧ r.2.heap[p]? = some (some (.errors l)) ∧ l ≠ []

theorem answer_reported {α : Type} (x : Except Err α) (err : Option Nat) (ok : α → Ret σ G) (hok : ∀ a, ok a ≠ .val .null) (failed : Val)
    (s : St σ G) (hvars : ∀ c p, s.vars c = some p → p < s.heap.length) : Reported failed err s (answer x err ok failed s) := by
  cases x with
  | ok a =>
    have hv : (answer (.ok a) err ok failed s).2.vars = s.vars := by
      simp only [answer, mapCerr, give]
      cases ok a <;> rfl
    refine ⟨fun _ => Or.inr ?_, fun c _ => by rw [hv], fun c _ h => absurd (by rw [hv]) h⟩
    simp only [answer, mapCerr, give]
    have := hok a
    cases h : ok a with
    | val v => rintro rfl; exact this h
    | obj o => simp
  | error e =>
    cases err with
    | none => exact ⟨fun _ => Or.inl (by simp), fun c _ => rfl, fun c h => by simp at h⟩
    | some d =>
      have hd : (answer (.error e) (some d) ok failed s).2.vars d = some s.heap.length := by
        simp [answer, mapCerr, alloc]
      refine ⟨fun h => ?_, fun c hc => ?_, fun c hc _ => ?_⟩
      · rw [h] at hd
        exact absurd (hvars _ _ hd) (by omega)
      · have : c ≠ d := fun h => hc (by rw [h])
        simp [answer, mapCerr, this]
      · simp only [Option.some.injEq] at hc
        subst hc
        refine ⟨rfl, s.heap.length, errorList e, hd, Nat.le_refl _, ?_, by simp [errorList]⟩
        simp [answer, mapCerr, alloc]

/-- Pointers in variables point to objects. -/
def VarsOk (s : St σ G) : Prop := ∀ c p, s.vars c = some p → p < s.heap.length

theorem Reported.of_store {failed : Val} {err : Option Nat} {s : St σ G} {p : Nat} {o : Obj σ G} {r : Val × St σ G}
    (h : Reported failed err (store p o s) r) : Reported failed err s r :=
  ⟨h.success, h.others, fun c hc hv => by
    obtain ⟨h1, q, l, h2, h3, h4⟩ := h.failed c hc hv
    exact ⟨h1, q, l, h2, by simpa [store] using h3, h4⟩⟩

theorem VarsOk.store {s : St σ G} (h : VarsOk s) (p : Nat) (o : Obj σ G) : VarsOk (store p o s) := by
  intro c q hq
  simpa [Capi.store] using h c q hq

theorem request_reported {α : Type} {ptr : Option Nat} {f : σ → Except Err α × σ} {err : Option Nat} {ok : α → Ret σ G}
    (hok : ∀ a, ok a ≠ .val .null) {failed : Val} {s : St σ G} (hv : VarsOk s) {r : Val × St σ G}
    (h : request ptr f err ok failed s = .ok r) : Reported failed err s r := by
  unfold request at h
  cases ptr with
  | none => simp [cast] at h
  | some p =>
    simp only [cast] at h
    cases hp : s.heap[p]? with
    | none => simp [hp] at h
    | some o =>
      cases o with
      | none => simp [hp] at h
      | some o =>
        cases o with
        | storage x =>
          simp only [hp, Except.ok.injEq] at h
          rw [← h]
          exact (answer_reported _ _ _ hok _ _ (hv.store p _)).of_store
        | _ => simp [hp] at h

theorem pushEvent_ok {ptr : Option Nat} {e : Event} {s : St σ G} {r : Val × St σ G} (h : pushEvent ptr e s = .ok r) :
    r.1 = .unit ∧ r.2.vars = s.vars := by
  unfold pushEvent at h
  cases ptr with
  | none => simp [cast] at h
  | some p =>
    simp only [cast] at h
    cases hp : s.heap[p]? with
    | none => simp [hp] at h
    | some o =>
      cases o with
      | none => simp [hp] at h
      | some o =>
        cases o with
        | update u =>
          simp only [hp] at h
          cases ha : u.addEvent e with
          | none => simp [ha] at h
          | some u' =>
            simp only [ha, Except.ok.injEq] at h
            rw [← h]
            exact ⟨rfl, rfl⟩
        | _ => simp [hp] at h

theorem pushEvent_reported {ptr err : Option Nat} {e : Event} {s : St σ G} {r : Val × St σ G} (h : pushEvent ptr e s = .ok r) :
    Reported .unit err s r := by
  obtain ⟨h1, h2⟩ := pushEvent_ok h
  exact ⟨fun _ => Or.inr (by rw [h1]; simp), fun c _ => by rw [h2], fun c _ hc => absurd (by rw [h2]) hc⟩

theorem bind_ok {α β : Type} {x : Except Stop α} {f : α → Except Stop β} {r : β} (h : (do let a ← x; f a) = .ok r) : ∃ a, x = .ok a ∧ f a = .ok r := by
  cases x with
  | error e => simp [bind, Except.bind] at h
  | ok a => exact ⟨a, rfl, h⟩

variable (lossy : List UInt8 → Str) (L : Lib σ G)

/-- **C100**: each call of a function with one result either leaves the variable for errors alone and gives a result that is not `NULL`, or it stores
a new list with at least one error in the variable and gives the documented failure value; other variables are not changed. -/
theorem C100_protocol {f : Fn} (hf : single f = true) {err : Option Nat} {s : St σ G} (hv : VarsOk s) {r : Val × St σ G}
    (h : exec lossy L f err s = .ok r) : Reported (failure f) err s r := by
  cases f with
  | outgoingEdges => simp [single] at hf
  | iterNext => simp [single] at hf
  | withAutoCacheSize d p =>
    simp only [exec, Except.ok.injEq] at h
    rw [← h]
    exact answer_reported _ _ _ (by simp) _ _ hv
  | withMaxCacheSize d n p =>
    simp only [exec, Except.ok.injEq] at h
    rw [← h]
    exact answer_reported _ _ _ (by simp) _ _ hv
  | annotationsForNode g n =>
    simp only [exec] at h
    obtain ⟨g', _, h⟩ := bind_ok h
    simp only [Except.ok.injEq] at h
    rw [← h]
    exact answer_reported _ _ _ (by simp) _ _ hv
  | annotationsForEdge g e c =>
    simp only [exec] at h
    obtain ⟨g', _, h⟩ := bind_ok h
    obtain ⟨c', _, h⟩ := bind_ok h
    simp only [Except.ok.injEq] at h
    cases hL : L.annosForEdge g' e c' with
    | none =>
      simp only [hL] at h
      rw [← h]
      exact ⟨fun _ => Or.inr (by simp [give]), fun c _ => rfl, fun c _ hc => absurd rfl hc⟩
    | some x =>
      simp only [hL] at h
      rw [← h]
      exact answer_reported _ _ _ (by simp) _ _ hv
  | applyUpdate p c u =>
    simp only [exec] at h
    cases u with
    | none => simp [cast] at h
    | some u =>
      simp only [cast] at h
      cases hu : s.heap[u]? with
      | none => simp [hu] at h
      | some o =>
        cases o with
        | none => simp [hu] at h
        | some o =>
          cases o with
          | update up =>
            simp only [hu] at h
            cases p with
            | none => simp at h
            | some p =>
              simp only at h
              cases hp : s.heap[p]? with
              | none => simp [hp] at h
              | some o =>
                cases o with
                | none => simp [hp] at h
                | some o =>
                  cases o with
                  | storage x =>
                    simp only [hp, Except.ok.injEq] at h
                    rw [← h]
                    exact (answer_reported _ _ _ (by simp) _ _ ((hv.store p _).store u _)).of_store.of_store
                  | _ => simp [hp] at h
          | _ => simp [hu] at h
  | addNode => exact pushEvent_reported h
  | deleteNode => exact pushEvent_reported h
  | addNodeLabel => exact pushEvent_reported h
  | deleteNodeLabel => exact pushEvent_reported h
  | addEdge => exact pushEvent_reported h
  | deleteEdge => exact pushEvent_reported h
  | addEdgeLabel => exact pushEvent_reported h
  | deleteEdgeLabel => exact pushEvent_reported h
  | count => obtain ⟨_, _, h⟩ := bind_ok h; exact request_reported (by simp) hv h
  | countExtra => obtain ⟨_, _, h⟩ := bind_ok h; exact request_reported (by simp) hv h
  | find => obtain ⟨_, _, h⟩ := bind_ok h; exact request_reported (by simp) hv h
  | subgraph => obtain ⟨_, _, h⟩ := bind_ok h; exact request_reported (by simp) hv h
  | subcorpusGraph => obtain ⟨_, _, h⟩ := bind_ok h; exact request_reported (by simp) hv h
  | frequency => obtain ⟨_, _, h⟩ := bind_ok h; exact request_reported (by simp) hv h
  | validateQuery => obtain ⟨_, _, h⟩ := bind_ok h; exact request_reported (by simp) hv h
  | exportToFs => obtain ⟨_, _, h⟩ := bind_ok h; exact request_reported (by simp) hv h
  | corpusGraph => exact request_reported (by simp) hv h
  | subgraphForQuery => exact request_reported (by simp) hv h
  | subgraphForQueryWithCtype => exact request_reported (by simp) hv h
  | list => exact request_reported (by simp) hv h
  | listNodeAnnotations => exact request_reported (by simp) hv h
  | listEdgeAnnotations => exact request_reported (by simp) hv h
  | nodeDescriptions => exact request_reported (by simp) hv h
  | importFromFs => exact request_reported (by simp) hv h
  | listComponentsByType => exact request_reported (by simp) hv h
  | delete => exact request_reported (by simp) hv h
  | unload => exact request_reported (by simp) hv h

/-- The client reads all messages and kinds of an error list. -/
def readErrors (p : Option Nat) (s : St σ G) : Except Stop (List (Str × Str)) := do
  let n ← errorSize p s
  (List.range n).mapM fun i => do return (cstr lossy (← errorMsg p i s), cstr lossy (← errorKind p i s))

/-- **C100**: a failed call of a function of the corpus storage stores its error followed by the chain of sources, for the client to read; after a
successful call the variable has the value it had before. -/
theorem C100_error_list {ptr ns : Nat} {x : σ} {v : List CString} {s : St σ G} (hx : s.heap[ptr]? = some (some (.storage x)))
    (hn : s.heap[ns]? = some (some (.vecStr v))) (q : CPtr) (l c : Nat) :
    (∀ e, (L.count x ⟨cstr lossy q, v.map (decodeLossy lossy), l⟩).1 = .error e →
      ∃ s' p, exec lossy L (.count (some ptr) (some ns) q l) (some c) s = .ok (.num 0, s') ∧ s'.vars c = some p ∧
        readErrors lossy (some p) s' = .ok ((clean e.msg, clean e.kind) :: e.sources.map fun m => (clean m, "Cause".toList))) ∧
    (∀ n, (L.count x ⟨cstr lossy q, v.map (decodeLossy lossy), l⟩).1 = .ok n →
      ∃ s', exec lossy L (.count (some ptr) (some ns) q l) (some c) s = .ok (.num n, s') ∧ s'.vars = s.vars) := by
  constructor
  · intro e he
    simp only [exec, stringsAt_ok lossy hn, bind, Except.bind]
    unfold request cast
    simp only [hx, answer, mapCerr, he]
    refine ⟨_, s.heap.length, rfl, ?_, ?_⟩
    · simp [alloc, store]
    · have hg : ((store ptr (.storage (L.count x ⟨cstr lossy q, v.map (decodeLossy lossy), l⟩).2) s).heap ++
          [some (.errors (errorList e))] : List (Option (Obj σ G)))[s.heap.length]? = some (some (.errors (errorList e))) := by
        rw [List.getElem?_append_right (by simp [store])]; simp [store]
      unfold readErrors errorSize errorMsg errorKind cast
      simp only [alloc, hg, bind, Except.bind]
      have := mapM_ok (fun i => pure (cstr lossy ((errorList e)[i]?.bind fun e => asPtr e.1), cstr lossy ((errorList e)[i]?.bind fun e => asPtr e.2)))
        (fun y : CString × CString => (cstr lossy (asPtr y.1), cstr lossy (asPtr y.2))) (errorList e) fun i y hy => by rw [hy]; rfl
      refine this.trans ?_
      unfold errorList
      simp only [List.map_cons, List.map_map, C99_to_c, Except.ok.injEq, List.cons.injEq, true_and]
      refine List.map_congr_left fun m _ => ?_
      simp only [Function.comp_apply, C99_to_c]
      rfl
  · intro n he
    simp only [exec, stringsAt_ok lossy hn, bind, Except.bind]
    unfold request cast
    simp only [hx, answer, mapCerr, he]
    exact ⟨_, rfl, rfl⟩

/-! ## Iterators and edges -/

/-- The client calls `annis_iter_nodeid_next` until it gets `NULL`, at most `n` times, and reads the identifiers. -/
def drain (p c : Nat) : Nat → St σ G → Except Stop (List Nat × St σ G)
  | 0, s => .ok ([], s)
  | n + 1, s => do
    let (v, s) ← exec lossy L (.iterNext (some p)) (some c) s
    match v with
    | .ptr q =>
      match s.heap[q]? with
      | some (some (.nodeId i)) =>
        let (r, s) ← drain p c n s
        return (i :: r, s)
      | _ => .error .undefined
    | _ => return ([], s)

/-- The values before the first error. -/
def upToError : List (Except Err Nat) → List Nat
  | .ok n :: r => n :: upToError r
  | _ => []

/-- **C100**: a client that calls `annis_iter_nodeid_next` until `NULL` gets the identifiers before the first error; if its variable was `NULL` before,
it is `NULL` afterwards exactly if there was no error, so that the client got all. -/
theorem C100_iterator {p c : Nat} : ∀ (l : List (Except Err Nat)) (n : Nat) (s : St σ G), l.length < n → s.heap[p]? = some (some (.iter l)) →
    ∃ s', drain lossy L p c n s = .ok (upToError l, s') ∧
      ((s'.vars c = s.vars c ∨ s'.vars c ≠ none) ∧ (s.vars c = none → (s'.vars c = none ↔ l = (upToError l).map Except.ok)))
  | [], 0, _, h, _ => by simp at h
  | [], n + 1, s, _, hp => by
    refine ⟨s, ?_, Or.inl rfl, fun h => by simp [upToError, h]⟩
    simp [drain, exec, cast, hp, upToError, bind, Except.bind]
    rfl
  | x :: l, 0, _, h, _ => by simp at h
  | .error e :: l, n + 1, s, _, hp => by
    refine ⟨(answer (σ := σ) (G := G) (.error e : Except Err Nat) (some c) (fun n => .obj (.nodeId n)) .null (store p (.iter l) s)).2, ?_, ?_, ?_⟩
    · simp only [drain, exec, cast, hp, bind, Except.bind, answer, mapCerr, upToError]
      rfl
    · right; simp [answer, mapCerr, alloc]
    · intro _; simp [answer, mapCerr, alloc, upToError]
  | .ok i :: l, n + 1, s, h, hp => by
    have hlt : p < s.heap.length := (List.getElem?_eq_some_iff.1 hp).1
    have hp' : ((alloc (.nodeId i) (store p (.iter l) s)).2 : St σ G).heap[p]? = some (some (.iter l)) := by
      simp only [alloc, store]
      rw [List.getElem?_append_left (by simpa using hlt), List.getElem?_set_self hlt]
    obtain ⟨s', h1, h2, h3⟩ := C100_iterator l n (alloc (.nodeId i) (store p (.iter l) s)).2 (by simpa using h) hp'
    refine ⟨s', ?_, h2, fun hc => ?_⟩
    · have hq : ((alloc (.nodeId i) (store p (.iter l) s)).2 : St σ G).heap[(store p (.iter l) s : St σ G).heap.length]? =
          some (some (.nodeId i)) := by
        simp only [alloc]
        rw [List.getElem?_append_right (Nat.le_refl _)]; simp
      have hx : exec lossy L (.iterNext (some p)) (some c) s =
          .ok (.ptr (store p (.iter l) s : St σ G).heap.length, (alloc (.nodeId i) (store p (.iter l) s)).2) := by
        simp only [exec, cast, hp, answer, mapCerr, give]
        rfl
      simp only [drain, hx, bind, Except.bind, hq, h1, upToError]
      rfl
    · rw [h3 hc]
      simp [upToError]

/-- The values that are not errors. -/
def values : List (Except Err Nat) → List Nat
  | [] => []
  | .ok n :: r => n :: values r
  | .error _ :: r => values r

theorem collectEdges_eq (source : Nat) (err : Option Nat) : ∀ (l : List (Except Err Nat)) (acc : List (Nat × Nat)) (s : St σ G),
    (collectEdges source err l acc s).1 = acc ++ (values l).map fun t => (source, t)
  | [], acc, s => by simp [collectEdges, values]
  | .ok t :: r, acc, s => by
    simp only [collectEdges, mapCerr]
    rw [collectEdges_eq source err r]
    simp [values]
  | .error e :: r, acc, s => by
    rw [collectEdges]
    cases err <;> simp only [mapCerr] <;> rw [collectEdges_eq _ _ r] <;> rfl

theorem collectEdges_vars (source c : Nat) : ∀ (l : List (Except Err Nat)) (acc : List (Nat × Nat)) (s : St σ G), s.vars c = none →
    ((collectEdges source (some c) l acc s).2.vars c = none ↔ l = (values l).map Except.ok)
  | [], acc, s, h => by simp [collectEdges, values, h]
  | .ok t :: r, acc, s, h => by
    simp only [collectEdges, mapCerr]
    rw [collectEdges_vars source c r _ _ h]
    simp [values]
  | .error e :: r, acc, s, h => by
    refine ⟨fun hn => ?_, fun he => ?_⟩
    · exfalso
      have key : ∀ (l : List (Except Err Nat)) (acc : List (Nat × Nat)) (s : St σ G), s.vars c ≠ none →
          (collectEdges source (some c) l acc s).2.vars c ≠ none := by
        intro l
        induction l with
        | nil => intro _ _ h; exact h
        | cons x l ih =>
          intro acc s h
          cases x with
          | ok t => simp only [collectEdges, mapCerr]; exact ih _ _ h
          | error e => simp only [collectEdges, mapCerr]; exact ih _ _ (by simp [alloc])
      rw [collectEdges] at hn
      simp only [mapCerr] at hn
      exact key _ _ _ (by simp [alloc]) hn
    · exfalso
      simp only [values] at he
      cases hv : values r with
      | nil => simp [hv] at he
      | cons y ys => simp [hv] at he

/-- **C100**: `annis_graph_outgoing_edges` always gives a vector: the targets that could be read. A variable that was `NULL` before is `NULL` afterwards
exactly if these are all targets. -/
theorem C100_outgoing {gp : Nat} {g : G} {s : St σ G} (hg : s.heap[gp]? = some (some (.graph g))) {cp i : Nat} {cl : List Comp} {comp : Comp}
    (hc : s.heap[cp]? = some (some (.comps cl))) (hi : cl[i]? = some comp) (source c : Nat) (hn : s.vars c = none) :
    ∃ p s', exec lossy L (.outgoingEdges (some gp) source (some (cp, i))) (some c) s = .ok (.ptr p, s') ∧
      s'.heap[p]? = some (some (.edges ((values ((L.outgoing g source comp).getD [])).map fun t => (source, t)))) ∧
      (s'.vars c = none ↔ (L.outgoing g source comp).getD [] = (values ((L.outgoing g source comp).getD [])).map Except.ok) := by
  have h1 : graphAt (some gp) s = .ok g := by unfold graphAt cast; simp only [hg]
  have h2 : compAt (some (cp, i)) s = .ok comp := by unfold compAt cast; simp only [hc, hi]
  simp only [exec, h1, h2, bind, Except.bind, give]
  refine ⟨_, _, rfl, ?_, ?_⟩
  · simp only [alloc]
    rw [List.getElem?_append_right (Nat.le_refl _)]
    simp [collectEdges_eq]
  · exact collectEdges_vars source c _ _ _ hn

/-! ## Pointers -/

/-- A pointer to a living object of a type. -/
def IsStorage (p : Option Nat) (s : St σ G) : Prop := ∃ q x, p = some q ∧ s.heap[q]? = some (some (.storage x))
def IsStrings (p : Option Nat) (s : St σ G) : Prop := ∃ q x, p = some q ∧ s.heap[q]? = some (some (.vecStr x))
def IsUpdate (p : Option Nat) (s : St σ G) : Prop := ∃ q x, p = some q ∧ s.heap[q]? = some (some (.update x))
def IsGraph (p : Option Nat) (s : St σ G) : Prop := ∃ q x, p = some q ∧ s.heap[q]? = some (some (.graph x))
def IsIter (p : Option Nat) (s : St σ G) : Prop := ∃ q x, p = some q ∧ s.heap[q]? = some (some (.iter x))
/-- A pointer to an entry of a living vector of components. -/
def IsComp (p : Option (Nat × Nat)) (s : St σ G) : Prop := ∃ q i l, p = some (q, i) ∧ s.heap[q]? = some (some (.comps l)) ∧ i < l.length

/-- What the client has to take care of when it calls a function. -/
def Args : Fn → St σ G → Prop
  | .withAutoCacheSize .., _ => True
  | .withMaxCacheSize .., _ => True
  | .count p ns .., s => IsStorage p s ∧ IsStrings ns s
  | .countExtra p ns .., s => IsStorage p s ∧ IsStrings ns s
  | .find p ns .., s => IsStorage p s ∧ IsStrings ns s
  | .subgraph p _ ids .., s => IsStorage p s ∧ IsStrings ids s
  | .subcorpusGraph p _ ids, s => IsStorage p s ∧ IsStrings ids s
  | .corpusGraph p _, s => IsStorage p s
  | .subgraphForQuery p .., s => IsStorage p s
  | .subgraphForQueryWithCtype p .., s => IsStorage p s
  | .frequency p ns .., s => IsStorage p s ∧ IsStrings ns s
  | .list p, s => IsStorage p s
  | .listNodeAnnotations p .., s => IsStorage p s
  | .listEdgeAnnotations p .., s => IsStorage p s
  | .validateQuery p ns .., s => IsStorage p s ∧ IsStrings ns s
  | .nodeDescriptions p .., s => IsStorage p s
  | .importFromFs p .., s => IsStorage p s
  | .exportToFs p ns .., s => IsStorage p s ∧ IsStrings ns s
  | .listComponentsByType p .., s => IsStorage p s
  | .delete p _, s => IsStorage p s
  | .unload p _, s => IsStorage p s
  | .applyUpdate p _ u, s => IsStorage p s ∧ IsUpdate u s
  | .annotationsForNode g _, s => IsGraph g s
  | .outgoingEdges g _ c, s => IsGraph g s ∧ IsComp c s
  | .annotationsForEdge g _ c, s => IsGraph g s ∧ IsComp c s
  | .iterNext p, s => IsIter p s
  | .addNode p .., s => IsUpdate p s
  | .deleteNode p .., s => IsUpdate p s
  | .addNodeLabel p .., s => IsUpdate p s
  | .deleteNodeLabel p .., s => IsUpdate p s
  | .addEdge p .., s => IsUpdate p s
  | .deleteEdge p .., s => IsUpdate p s
  | .addEdgeLabel p .., s => IsUpdate p s
  | .deleteEdgeLabel p .., s => IsUpdate p s

/-- All updates have been built with the operations of C21. -/
def UpdatesOk (s : St σ G) : Prop :=
  ∀ (q : Nat) u, s.heap[q]? = some (some (.update u)) → ∃ ops, GraphUpdate.run ops = some u

theorem request_total {α : Type} {ptr : Option Nat} {f : σ → Except Err α × σ} {err : Option Nat} {ok : α → Ret σ G} {failed : Val} {s : St σ G} :
    (∃ r, request ptr f err ok failed s = .ok r) ↔ IsStorage ptr s := by
  unfold request IsStorage cast
  cases ptr with
  | none => simp
  | some p =>
    cases hp : s.heap[p]? with
    | none => simp [hp]
    | some o =>
      cases o with
      | none => simp [hp]
      | some o => cases o <;> simp [hp]

theorem strings_total {ptr : Option Nat} {s : St σ G} : (∃ r, stringsAt lossy ptr s = .ok r) ↔ IsStrings ptr s := by
  unfold stringsAt IsStrings cast
  cases ptr with
  | none => simp
  | some p =>
    cases hp : s.heap[p]? with
    | none => simp [hp]
    | some o =>
      cases o with
      | none => simp [hp]
      | some o => cases o <;> simp [hp]

theorem graph_total {ptr : Option Nat} {s : St σ G} : (∃ r, graphAt ptr s = .ok r) ↔ IsGraph ptr s := by
  unfold graphAt IsGraph cast
  cases ptr with
  | none => simp
  | some p =>
    cases hp : s.heap[p]? with
    | none => simp [hp]
    | some o =>
      cases o with
      | none => simp [hp]
      | some o => cases o <;> simp [hp]

theorem comp_total {ptr : Option (Nat × Nat)} {s : St σ G} : (∃ r, compAt ptr s = .ok r) ↔ IsComp ptr s := by
  unfold compAt IsComp cast
  cases ptr with
  | none => simp
  | some p =>
    obtain ⟨p, i⟩ := p
    simp only
    constructor
    · rintro ⟨r, hr⟩
      cases hp : s.heap[p]? with
      | none => simp [hp] at hr
      | some o =>
        cases o with
        | none => simp [hp] at hr
        | some o =>
          cases o with
          | comps l =>
            simp only [hp] at hr
            cases hl : l[i]? with
            | none => simp [hl] at hr
            | some c => exact ⟨p, i, l, rfl, hp, (List.getElem?_eq_some_iff.1 hl).1⟩
          | _ => simp [hp] at hr
    · rintro ⟨q, j, l, he, hq, hj⟩
      simp only [Option.some.injEq, Prod.mk.injEq] at he
      obtain ⟨rfl, rfl⟩ := he
      simp [hq, List.getElem?_eq_getElem hj]

theorem push_total {ptr : Option Nat} {e : Event} {s : St σ G} (hu : UpdatesOk s) : (∃ r, pushEvent ptr e s = .ok r) ↔ IsUpdate ptr s := by
  constructor
  · rintro ⟨r, hr⟩
    unfold pushEvent cast at hr
    cases ptr with
    | none => simp at hr
    | some p =>
      cases hp : s.heap[p]? with
      | none => simp [hp] at hr
      | some o =>
        cases o with
        | none => simp [hp] at hr
        | some o =>
          cases o with
          | update u => exact ⟨p, u, rfl, hp⟩
          | _ => simp [hp] at hr
  · rintro ⟨q, u, rfl, hq⟩
    obtain ⟨ops, ho⟩ := hu q u hq
    obtain ⟨u', h1, _⟩ := GraphUpdate.C21_update_log (ops ++ [GraphUpdate.Op.add e])
    unfold GraphUpdate.run at h1 ho
    rw [List.foldlM_append] at h1
    simp only [ho, Option.bind_eq_bind, Option.bind_some, List.foldlM_cons, List.foldlM_nil, Option.pure_def, Option.bind_fun_some] at h1
    have h2 : u.addEvent e = some u' := h1
    unfold pushEvent cast
    simp only [hq, h2]
    exact ⟨_, rfl⟩

theorem both_total {α β : Type} {x : Except Stop α} {f : α → Except Stop β} {P Q : Prop} (hx : (∃ a, x = .ok a) ↔ Q) (hf : ∀ a, (∃ b, f a = .ok b) ↔ P) :
    (∃ r, (do let a ← x; f a) = .ok r) ↔ P ∧ Q := by
  constructor
  · rintro ⟨r, hr⟩
    obtain ⟨a, ha, hb⟩ := bind_ok hr
    exact ⟨(hf a).1 ⟨r, hb⟩, hx.1 ⟨a, ha⟩⟩
  · rintro ⟨hp, hq⟩
    obtain ⟨a, rfl⟩ := hx.2 hq
    exact (hf a).2 hp

/-- **C100**: a call returns, for all other arguments and whatever the library answers, exactly if its pointers point to living objects of the right
types; texts may be `NULL`. -/
theorem C100_pointers (f : Fn) (err : Option Nat) {s : St σ G} (hu : UpdatesOk s) : (∃ r, exec lossy L f err s = .ok r) ↔ Args f s := by
  cases f with
  | withAutoCacheSize => exact ⟨fun _ => trivial, fun _ => ⟨_, rfl⟩⟩
  | withMaxCacheSize => exact ⟨fun _ => trivial, fun _ => ⟨_, rfl⟩⟩
  | annotationsForNode g n =>
    have := both_total (P := True) (graph_total (ptr := g) (s := s)) (f := fun g =>
      (.ok (answer (L.annosForNode g n) err (fun l => .obj (.annos l)) .null s) : Except Stop (Val × St σ G))) (fun a => ⟨fun _ => trivial, fun _ => ⟨_, rfl⟩⟩)
    simpa [Args, exec] using this
  | outgoingEdges g n c =>
    refine Iff.trans (both_total (graph_total (ptr := g) (s := s)) (P := IsComp c s) fun g => ?_) And.comm
    have := both_total (P := True) (comp_total (ptr := c) (s := s)) (f := fun c => (.ok (give (.obj (.edges
      (collectEdges n err ((L.outgoing g n c).getD []) [] s).1)) (collectEdges n err ((L.outgoing g n c).getD []) [] s).2) : Except Stop (Val × St σ G)))
      (fun a => ⟨fun _ => trivial, fun _ => ⟨_, rfl⟩⟩)
    simpa using this
  | annotationsForEdge g e c =>
    refine Iff.trans (both_total (graph_total (ptr := g) (s := s)) (P := IsComp c s) fun g => ?_) And.comm
    refine Iff.trans (both_total (P := True) (comp_total (ptr := c) (s := s)) (fun a => ⟨fun _ => trivial, fun _ => ⟨_, rfl⟩⟩)) ?_
    simp
  | iterNext p =>
    simp only [exec, Args, IsIter, cast]
    cases p with
    | none => simp
    | some p =>
      cases hp : s.heap[p]? with
      | none => simp [hp]
      | some o =>
        cases o with
        | none => simp [hp]
        | some o =>
          cases o with
          | iter l => cases l <;> simp [hp]
          | _ => simp [hp]
  | applyUpdate p c u =>
    simp only [exec, Args, IsStorage, IsUpdate, cast]
    cases u with
    | none => simp
    | some u =>
      cases hq : s.heap[u]? with
      | none => simp [hq]
      | some o =>
        cases o with
        | none => simp [hq]
        | some o =>
          cases o with
          | update up =>
            cases p with
            | none => simp [hq]
            | some p =>
              cases hp : s.heap[p]? with
              | none => simp [hq, hp]
              | some o =>
                cases o with
                | none => simp [hq, hp]
                | some o => cases o <;> simp [hq, hp]
          | _ => simp [hq]
  | addNode => exact push_total hu
  | deleteNode => exact push_total hu
  | addNodeLabel => exact push_total hu
  | deleteNodeLabel => exact push_total hu
  | addEdge => exact push_total hu
  | deleteEdge => exact push_total hu
  | addEdgeLabel => exact push_total hu
  | deleteEdgeLabel => exact push_total hu
  | count => exact both_total (strings_total lossy) fun _ => request_total
  | countExtra => exact both_total (strings_total lossy) fun _ => request_total
  | find => exact both_total (strings_total lossy) fun _ => request_total
  | subgraph => exact both_total (strings_total lossy) fun _ => request_total
  | subcorpusGraph => exact both_total (strings_total lossy) fun _ => request_total
  | frequency => exact both_total (strings_total lossy) fun _ => request_total
  | validateQuery => exact both_total (strings_total lossy) fun _ => request_total
  | exportToFs => exact both_total (strings_total lossy) fun _ => request_total
  | corpusGraph => exact request_total
  | subgraphForQuery => exact request_total
  | subgraphForQueryWithCtype => exact request_total
  | list => exact request_total
  | listNodeAnnotations => exact request_total
  | listEdgeAnnotations => exact request_total
  | nodeDescriptions => exact request_total
  | importFromFs => exact request_total
  | listComponentsByType => exact request_total
  | delete => exact request_total
  | unload => exact request_total

/-! ## Other objects -/

/-- Objects that only the client changes or frees. -/
def Obj.stable : Obj σ G → Bool
  | .storage _ => false
  | .update _ => false
  | .iter _ => false
  | _ => true

/-- The objects of `s` that only the client changes are still there, and pointers to freed objects are not used again. -/
def Keeps (s t : St σ G) : Prop :=
  (∀ (q : Nat) (o : Obj σ G), s.heap[q]? = some (some o) → o.stable = true → t.heap[q]? = some (some o)) ∧ ∀ (q : Nat), s.heap[q]? = some none → t.heap[q]? = some none

theorem Keeps.refl (s : St σ G) : Keeps s s := ⟨fun _ _ h _ => h, fun _ h => h⟩

theorem Keeps.trans {s t u : St σ G} (h : Keeps s t) (k : Keeps t u) : Keeps s u :=
  ⟨fun q o ho hs => k.1 q o (h.1 q o ho hs) hs, fun q hq => k.2 q (h.2 q hq)⟩

theorem keeps_alloc (o : Obj σ G) (s : St σ G) (vars : Nat → Option Nat) : Keeps s { (alloc o s).2 with vars := vars } := by
  constructor
  · intro q o' h _
    simp only [alloc]
    rw [List.getElem?_append_left (List.getElem?_eq_some_iff.1 h).1]
    exact h
  · intro q h
    simp only [alloc]
    rw [List.getElem?_append_left (List.getElem?_eq_some_iff.1 h).1]
    exact h

theorem keeps_store {p : Nat} {o o' : Obj σ G} {s : St σ G} (h : s.heap[p]? = some (some o')) (hs : o'.stable = false) : Keeps s (store p o s) := by
  constructor
  · intro q x hq hx
    have : p ≠ q := by
      rintro rfl
      rw [h] at hq
      simp only [Option.some.injEq] at hq
      rw [hq, hx] at hs
      exact absurd hs (by decide)
    simp only [store]
    rw [List.getElem?_set_ne this]
    exact hq
  · intro q hq
    have : p ≠ q := by
      rintro rfl
      rw [h] at hq
      simp at hq
    simp only [store]
    rw [List.getElem?_set_ne this]
    exact hq

theorem keeps_mapCerr {α : Type} (x : Except Err α) (err : Option Nat) (s : St σ G) : Keeps s (mapCerr x err s).2 := by
  cases x with
  | ok a => exact Keeps.refl s
  | error e =>
    cases err with
    | none => exact Keeps.refl s
    | some c => exact keeps_alloc _ s _

theorem keeps_give (r : Ret σ G) (s : St σ G) : Keeps s (give r s).2 := by
  cases r with
  | val v => exact Keeps.refl s
  | obj o => exact keeps_alloc o s _

theorem keeps_answer {α : Type} (x : Except Err α) (err : Option Nat) (ok : α → Ret σ G) (failed : Val) (s : St σ G) :
    Keeps s (answer x err ok failed s).2 := by
  cases x with
  | ok a => exact keeps_give (ok a) s
  | error e => exact (keeps_mapCerr (.error e : Except Err α) err s).trans (by cases err <;> exact Keeps.refl _)

theorem keeps_request {α : Type} {ptr : Option Nat} {f : σ → Except Err α × σ} {err : Option Nat} {ok : α → Ret σ G} {failed : Val} {s : St σ G}
    {r : Val × St σ G} (h : request ptr f err ok failed s = .ok r) : Keeps s r.2 := by
  obtain ⟨p, x, rfl, hp⟩ := request_total.1 ⟨r, h⟩
  unfold request cast at h
  simp only [hp, Except.ok.injEq] at h
  rw [← h]
  exact (keeps_store hp rfl).trans (keeps_answer _ _ _ _ _)

theorem keeps_push {ptr : Option Nat} {e : Event} {s : St σ G} {r : Val × St σ G} (h : pushEvent ptr e s = .ok r) : Keeps s r.2 := by
  unfold pushEvent at h
  cases ptr with
  | none => simp [cast] at h
  | some p =>
    simp only [cast] at h
    cases hp : s.heap[p]? with
    | none => simp [hp] at h
    | some o =>
      cases o with
      | none => simp [hp] at h
      | some o =>
        cases o with
        | update u =>
          simp only [hp] at h
          cases ha : u.addEvent e with
          | none => simp [ha] at h
          | some u' =>
            simp only [ha, Except.ok.injEq] at h
            rw [← h]
            exact keeps_store hp rfl
        | _ => simp [hp] at h

theorem keeps_collect (source : Nat) (err : Option Nat) : ∀ (l : List (Except Err Nat)) (acc : List (Nat × Nat)) (s : St σ G),
    Keeps s (collectEdges source err l acc s).2
  | [], _, s => Keeps.refl s
  | .ok t :: r, acc, s => keeps_collect source err r _ s
  | .error e :: r, acc, s => by
    have h := keeps_mapCerr (.error e : Except Err Nat) err s
    cases err with
    | none => exact keeps_collect source none r acc s
    | some c => exact h.trans (keeps_collect source (some c) r acc _)

/-- **C100**: no call changes or frees vectors, tables, graphs, error lists or strings that the client has, and no new object gets the place of a freed
one (the model never reuses memory), whether the call fails or not. -/
theorem C100_frame {f : Fn} {err : Option Nat} {s : St σ G} {r : Val × St σ G} (h : exec lossy L f err s = .ok r) : Keeps s r.2 := by
  cases f with
  | withAutoCacheSize d p =>
    simp only [exec, Except.ok.injEq] at h
    rw [← h]
    exact keeps_answer _ _ _ _ _
  | withMaxCacheSize d n p =>
    simp only [exec, Except.ok.injEq] at h
    rw [← h]
    exact keeps_answer _ _ _ _ _
  | annotationsForNode g n =>
    simp only [exec] at h
    obtain ⟨g', _, h⟩ := bind_ok h
    simp only [Except.ok.injEq] at h
    rw [← h]
    exact keeps_answer _ _ _ _ _
  | outgoingEdges g n c =>
    simp only [exec] at h
    obtain ⟨g', _, h⟩ := bind_ok h
    obtain ⟨c', _, h⟩ := bind_ok h
    simp only [Except.ok.injEq] at h
    rw [← h]
    exact (keeps_collect _ _ _ _ _).trans (keeps_give _ _)
  | annotationsForEdge g e c =>
    simp only [exec] at h
    obtain ⟨g', _, h⟩ := bind_ok h
    obtain ⟨c', _, h⟩ := bind_ok h
    simp only [Except.ok.injEq] at h
    cases hL : L.annosForEdge g' e c' with
    | none =>
      simp only [hL] at h
      rw [← h]
      exact keeps_give _ _
    | some x =>
      simp only [hL] at h
      rw [← h]
      exact keeps_answer _ _ _ _ _
  | iterNext p =>
    simp only [exec, cast] at h
    cases p with
    | none => simp at h
    | some p =>
      cases hp : s.heap[p]? with
      | none => simp [hp] at h
      | some o =>
        cases o with
        | none => simp [hp] at h
        | some o =>
          cases o with
          | iter l =>
            cases l with
            | nil =>
              simp only [hp, Except.ok.injEq] at h
              rw [← h]
              exact Keeps.refl s
            | cons x l =>
              simp only [hp, Except.ok.injEq] at h
              rw [← h]
              exact (keeps_store hp rfl).trans (keeps_answer _ _ _ _ _)
          | _ => simp [hp] at h
  | applyUpdate p c u =>
    simp only [exec] at h
    cases u with
    | none => simp [cast] at h
    | some u =>
      simp only [cast] at h
      cases hu : s.heap[u]? with
      | none => simp [hu] at h
      | some o =>
        cases o with
        | none => simp [hu] at h
        | some o =>
          cases o with
          | update up =>
            simp only [hu] at h
            cases p with
            | none => simp at h
            | some p =>
              simp only at h
              cases hp : s.heap[p]? with
              | none => simp [hp] at h
              | some o =>
                cases o with
                | none => simp [hp] at h
                | some o =>
                  cases o with
                  | storage x =>
                    simp only [hp, Except.ok.injEq] at h
                    rw [← h]
                    have hne : p ≠ u := by
                      rintro rfl
                      rw [hu] at hp
                      simp at hp
                    have hu' : (store p (.storage (L.applyUpdate x (cstr lossy c) up).2) s : St σ G).heap[u]? = some (some (.update up)) := by
                      simp only [store]
                      rw [List.getElem?_set_ne hne]
                      exact hu
                    exact ((keeps_store hp rfl).trans (keeps_store hu' rfl)).trans (keeps_answer _ _ _ _ _)
                  | _ => simp [hp] at h
          | _ => simp [hu] at h
  | addNode => exact keeps_push h
  | deleteNode => exact keeps_push h
  | addNodeLabel => exact keeps_push h
  | deleteNodeLabel => exact keeps_push h
  | addEdge => exact keeps_push h
  | deleteEdge => exact keeps_push h
  | addEdgeLabel => exact keeps_push h
  | deleteEdgeLabel => exact keeps_push h
  | count => obtain ⟨_, _, h⟩ := bind_ok h; exact keeps_request h
  | countExtra => obtain ⟨_, _, h⟩ := bind_ok h; exact keeps_request h
  | find => obtain ⟨_, _, h⟩ := bind_ok h; exact keeps_request h
  | subgraph => obtain ⟨_, _, h⟩ := bind_ok h; exact keeps_request h
  | subcorpusGraph => obtain ⟨_, _, h⟩ := bind_ok h; exact keeps_request h
  | frequency => obtain ⟨_, _, h⟩ := bind_ok h; exact keeps_request h
  | validateQuery => obtain ⟨_, _, h⟩ := bind_ok h; exact keeps_request h
  | exportToFs => obtain ⟨_, _, h⟩ := bind_ok h; exact keeps_request h
  | corpusGraph => exact keeps_request h
  | subgraphForQuery => exact keeps_request h
  | subgraphForQueryWithCtype => exact keeps_request h
  | list => exact keeps_request h
  | listNodeAnnotations => exact keeps_request h
  | listEdgeAnnotations => exact keeps_request h
  | nodeDescriptions => exact keeps_request h
  | importFromFs => exact keeps_request h
  | listComponentsByType => exact keeps_request h
  | delete => exact keeps_request h
  | unload => exact keeps_request h

end

/-! ## Releasing memory -/

section
variable {σ G : Type}

/-- **C100**: strings that the interface hands out can be given back with `annis_str_free`, and the object is gone afterwards. -/
theorem C100_str_free (t : Str) {p : Nat} {s : St σ G} (h : s.heap[p]? = some (some (.str (cstring t)))) :
    ∃ s', strFree (some p) s = .ok s' ∧ s'.heap[p]? = some none ∧ ∀ q, q ≠ p → s'.heap[q]? = s.heap[q]? := by
  have hz : 0 ∉ cstring t := by
    rw [cstring_eq]
    split
    · simp
    · rw [zero_mem_utf8]; assumption
  have ht : (cstring t ++ [0]).takeWhile (· ≠ 0) = cstring t := by
    rw [List.takeWhile_append_of_pos]
    · simp
    · intro x hx
      simp only [ne_eq, decide_not, Bool.not_eq_eq_eq_not, Bool.not_true, decide_eq_false_iff_not]
      rintro rfl
      exact hz hx
  refine ⟨{ s with heap := s.heap.set p none }, ?_, ?_, fun q hq => ?_⟩
  · unfold strFree
    simp only [h]
    rw [if_pos ht]
  · exact List.getElem?_set_self (List.getElem?_eq_some_iff.1 h).1
  · exact List.getElem?_set_ne (Ne.symm hq)

/-- `annis_free` gives the allocator the layout of one byte for every object: with objects that need more, this is against the rules of the allocator.
All vectors, tables, graphs, updates, iterators, node identifiers and error lists that the client gets and shall free are such objects. -/
theorem C100_free_fails (storage graph update : Nat) {p : Nat} {o : Obj σ G} {s : St σ G} (h : s.heap[p]? = some (some o))
    (ho : ∀ c, o ≠ .str c) : free (layout storage graph update) (some p) s = .error .undefined := by
  unfold free
  simp only [h]
  rw [if_neg]
  cases o with
  | str c => exact absurd rfl (ho c)
  | _ => simp [layout]

end

/-! ## Examples -/

namespace Ex

/-- A library with two match identifiers that fails for one query. -/
def lib : Lib Unit Unit where
  new _ _ _ := .ok ()
  count _ q := (if q.query = "bad".toList then .error ⟨"syntax".toList, "AQLSyntaxError".toList, []⟩ else .ok 3, ())
  countExtra _ _ := (.ok (3, 1), ())
  find _ _ _ _ _ := (.ok ["a".toList, [nul]], ())
  subgraph _ _ _ _ _ _ := (.ok (), ())
  subcorpusGraph _ _ _ := (.ok (), ())
  corpusGraph _ _ := (.ok (), ())
  subgraphForQuery _ _ _ _ _ := (.ok (), ())
  frequency _ _ _ := (.ok [], ())
  list _ := (.ok ["a".toList, [nul]], ())
  nodeAnnos _ _ _ _ := (.ok [], ())
  edgeAnnos _ _ _ _ _ := (.ok [], ())
  validate _ _ _ _ := (.ok true, ())
  nodeDescriptions _ _ _ := (.ok [], ())
  importFrom _ _ _ _ _ _ := (.ok [], ())
  exportTo _ _ _ _ := (.ok (), ())
  components _ _ _ := (.ok [], ())
  delete _ _ := (.ok true, ())
  unload _ _ := (.ok (), ())
  applyUpdate _ _ u := ((.ok (), u), ())
  nodesByType _ _ := [.ok 1, .error ⟨[], [], []⟩, .ok 2]
  annosForNode _ _ := .ok []
  graphComps _ _ := []
  outgoing _ _ _ := some [.ok 1, .error ⟨[], [], []⟩, .ok 2]
  annosForEdge _ _ _ := some (.ok [])

/-- A storage and a vector with a corpus name. -/
def st : St Unit Unit := ⟨[some (.storage ()), some (.vecStr [[97]])], fun _ => none⟩

def bad : Fn := .count (some 0) (some 1) (some [98, 97, 100, 0]) 0
def good : Fn := .count (some 0) (some 1) (some [103, 0]) 0

/-- Results and the variable after calls. -/
def after (fs : List Fn) : Option (List Val × Option Nat) :=
  match execAll (fun _ => []) lib (fs.map fun f => (f, some 7)) st with
  | .ok (vs, s) => some (vs, s.vars 7)
  | .error _ => none

/-- The assumptions of C99 and C100 hold for a storage, a vector and a variable that is `NULL`. -/
theorem C100_nonvacuous : VarsOk st ∧ UpdatesOk st ∧ st.heap[0]? = some (some (.storage ())) ∧ st.heap[1]? = some (some (.vecStr [[97]])) ∧
    after [good] = some ([.num 3], none) ∧ after [bad] = some ([.num 0], some 2) := by
  refine ⟨fun c p h => by simp [st] at h, fun q u h => ?_, rfl, rfl, by decide +kernel, by decide +kernel⟩
  rcases q with _ | _ | q <;> simp [st] at h

/-- A successful call does not clear the variable, so that a client that uses it again takes the result for a failure; a second error replaces the
first list, which nothing points to any more. -/
theorem C100_stale_fails : after [bad, good] = some ([.num 0, .num 3], some 2) ∧ after [bad, bad] = some ([.num 0, .num 0], some 3) := by
  constructor <;> decide +kernel

/-- Two different match identifiers with NUL look the same to the client, and such corpora are not in the list. -/
theorem C99_nul_fails : clean [nul] = clean [nul, 'a'] ∧ clean [nul] ≠ [nul] ∧ (["a".toList, [nul]].filter fun n => nul ∉ n) = ["a".toList] := by
  decide +kernel

/-- Two events with texts without NUL. -/
theorem C99_nonvacuous : (∀ e ∈ [Event.addNode "n".toList "node".toList, .addEdge "n".toList "m".toList [] "Dominance".toList "x".toList],
    ∀ t ∈ e.texts, nul ∉ t) ∧ FreqDef.Ok ⟨some "tiger".toList, "pos".toList, "1".toList⟩ := by
  refine ⟨by decide +kernel, by decide, by decide, by decide⟩

end Ex
end Capi
