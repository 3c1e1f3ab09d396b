import Verif.Whole.Props
import Verif.Query.Tree

/-!
# C98: the exact results of a query without the global distinctness rule

Outside of the quirks mode, joins by operators that are not reflexive leave out rows with the same match for both operands, but these
operators keep such rows if their operands are already joined.
-/

namespace Whole

variable {T N V E : Type} [LinearOrder T] [LinearOrder N] [OrderBot N] [LinearOrder V]

/-- Two nodes of the query are connected by operators. -/
def Joined (bins : List (Bin T N V)) : Nat → Nat → Prop := Relation.EqvGen fun x y => ∃ b ∈ bins, b.left = x ∧ b.right = y

/-- Different matches for the operands of each operator that is not reflexive, unless operators before it connect them. -/
def DifferInOrder (bins : List (Bin T N V)) (row : Row T (AnnoKey N)) : Prop :=
  ∀ before b after, bins = before ++ b :: after → reflexive b.kind = false → ¬ Joined before b.left b.right → row[b.left]? ≠ row[b.right]?

/-- Different matches for the operands of each operator that is not reflexive. -/
def DifferAlways (bins : List (Bin T N V)) (row : Row T (AnnoKey N)) : Prop :=
  ∀ b ∈ bins, reflexive b.kind = false → row[b.left]? ≠ row[b.right]?

/-- No operator connects nodes that the other operators already connect. -/
def Tree (bins : List (Bin T N V)) : Prop := ∀ before b after, bins = before ++ b :: after → ¬ Joined (before ++ after) b.left b.right

theorem linked_iff (th : TokenHelper T) (order : GStore T) (global : Bool) (bins : List (Bin T N V)) (x y : Nat) :
    Linked (bins.map (Bin.toQ (E := E) th order global)) x y ↔ Joined bins x y := by
  unfold Linked Joined
  have : (fun a b => ∃ o ∈ bins.map (Bin.toQ (E := E) th order global), o.left = a ∧ o.right = b) =
      fun a b => ∃ c ∈ bins, c.left = a ∧ c.right = b := by
    funext a b
    refine propext ⟨?_, ?_⟩
    · rintro ⟨o, ho, h⟩
      obtain ⟨c, hc, rfl⟩ := List.mem_map.1 ho
      exact ⟨c, hc, h⟩
    · rintro ⟨c, hc, h⟩
      exact ⟨_, List.mem_map_of_mem hc, h⟩
  rw [this]

theorem differ_iff (th : TokenHelper T) (order : GStore T) (global : Bool) (bins : List (Bin T N V)) (row : Row T (AnnoKey N)) :
    Differ (bins.map (Bin.toQ (E := E) th order global)) row ↔ DifferInOrder bins row := by
  constructor
  · intro h before b after hb hr hl
    refine h (before.map (Bin.toQ th order global)) (b.toQ th order global) (after.map (Bin.toQ th order global)) (by rw [hb]; simp) ?_ ?_
    · simpa [Bin.toQ, reflexive_eq] using hr
    · rw [linked_iff]; exact hl
  · intro h before o after ho hr hl
    obtain ⟨b1, b2, rfl, rfl, e3⟩ := List.map_eq_append_iff.1 ho
    obtain ⟨b, b3, rfl, rfl, rfl⟩ := List.map_eq_cons_iff.1 e3
    rw [linked_iff] at hl
    exact h b1 b b3 rfl (by simpa [Bin.toQ, reflexive_eq] using hr) hl

section
variable {ops : List (AnnoStore.Op T N V)} {env : NsEnv N V} {g : NsGraph T N V} {r : Rels T N V} {th : TokenHelper T}
  {order : GStore T} {Ec : GStore T → T → T → Prop} {D : T → Prop} {Rg : Nat → Bnd Nat → Prop}
  {De : EdgeStore T N V → T → Prop} {Re : EdgeStore T N V → Nat → Bnd Nat → Prop}
  {nodes : List (Option (Node T N V))} {bins : List (Bin T N V)}
  {S : List (Option (List (SMatch T (AnnoKey N)) × Option (NsDesc T (AnnoKey N) E)))}

theorem sameReflexive (b : Bin T N V) (global : Bool) : SameReflexive (b.toQ (E := E) th order global) := by
  intro i hi
  rcases hi with hi | hi
  · have h : inv th order b.kind = some i := hi
    show i.base.reflexive = (fwd (E := E) th order b.kind).base.reflexive
    revert h
    cases b.kind with
    | precedence dist j => cases j <;> simp only [inv] <;> intro h <;> simp at h <;> subst h <;> rfl
    | segPrecedence c dist j => cases j <;> simp only [inv] <;> intro h <;> simp at h <;> subst h <;> rfl
    | segNear c dist => intro h; rw [← Option.some.inj h]
    | edge gs dist anno refl j j2 => cases j <;> simp only [inv] <;> intro h <;> simp at h <;> subst h <;> rfl
    | inclusion => intro h; simp [inv] at h
    | negated op => intro h; simp [inv] at h
    | near dist => intro h; rw [← Option.some.inj h]
    | overlap refl => intro h; rw [← Option.some.inj h]
    | leftAlignment => intro h; rw [← Option.some.inj h]
    | rightAlignment => intro h; rw [← Option.some.inj h]
    | identicalCoverage => intro h; rw [← Option.some.inj h]
    | identicalNode => intro h; rw [← Option.some.inj h]
  · rw [inv2_eq b.kind i hi]; rfl

/-- **C98**: without the global distinctness rule, the results of every plan are exactly the combinations that the query describes and in
which the operands of each operator that is not reflexive have different matches, unless the operators before it in the chosen order
already connect its operands; each combination once. -/
theorem C98_exact (hco : CorpusOk ops env g r th order Ec D Rg) (hq : QueryOk env (AnnoStore.spec ops) r th Ec Rg De Re nodes bins)
    (hS : searches env g nodes = .ok S) (d : SMatch T (AnnoKey N)) {bins' : List (Bin T N V)} (hp : bins'.Perm bins) :
    ∀ e, MakePlan S (bins'.map (Bin.toQ th order false)) e →
      ∃ rows : List (Row T (AnnoKey N)), e.rows.map (reorderMatch d (inversePos e.pos)) = rows.map some ∧ rows.Nodup ∧
        ∀ row, row ∈ rows ↔ IsAnswer env (AnnoStore.spec ops) r d nodes bins row ∧ DifferInOrder bins' row := by
  classical
  intro e he
  have hnd := C61_nodup d S (rel r th order false bins) (bins.map (Bin.toQ th order false)) fun n => (candidates hco hq hS d n).2.2
  obtain ⟨rows, e1, e2⟩ := C61_exact d S (rel r th order false bins) _ (rel_ok hco hq hS d false (Or.inl rfl))
    (fun o ho => by obtain ⟨b, _, rfl⟩ := List.mem_map.1 ho; rfl)
    (fun o ho => by obtain ⟨b, _, rfl⟩ := List.mem_map.1 ho; exact sameReflexive b false)
    (operands_of hq hS false) _ 0 (connected_of hq hS false) _ (hp.map _) e he
  refine ⟨rows, e1, e2.nodup_iff.2 (hnd.filter _), fun row => ?_⟩
  rw [e2.mem_iff, List.mem_filter, decide_eq_true_eq, differ_iff, mem_answers hco hq hS d false row]

theorem differInOrder_tree {bins bins' : List (Bin T N V)} (h : Tree bins) (hp : bins'.Perm bins) (row : Row T (AnnoKey N)) :
    DifferInOrder bins' row ↔ DifferAlways bins row := by
  constructor
  · intro hd b hb hr
    obtain ⟨x, y, e⟩ := List.append_of_mem (hp.mem_iff.2 hb)
    obtain ⟨l, r, e'⟩ := List.append_of_mem hb
    refine hd x b y e hr fun hk => h l b r e' ?_
    have h1 : (b :: (x ++ y)).Perm (b :: (l ++ r)) := by
      refine (List.perm_middle.symm.trans ?_).trans List.perm_middle
      rw [← e, ← e']; exact hp
    refine Relation.EqvGen.mono (r := fun a c => ∃ o ∈ x, o.left = a ∧ o.right = c) ?_ _ _ hk
    rintro a c ⟨o, ho, h2⟩
    exact ⟨o, h1.cons_inv.mem_iff.1 (List.mem_append_left _ ho), h2⟩
  · intro hd x b y e hr _
    exact hd b (hp.mem_iff.1 (by rw [e]; simp)) hr

/-- **C98**: if the operators form a tree then, without the global distinctness rule, the results of every plan for every order of the
operators are exactly the combinations that the query describes and in which the operands of each operator that is not reflexive have
different matches; each combination once. -/
theorem C98_tree (hco : CorpusOk ops env g r th order Ec D Rg) (hq : QueryOk env (AnnoStore.spec ops) r th Ec Rg De Re nodes bins)
    (hS : searches env g nodes = .ok S) (d : SMatch T (AnnoKey N)) (ht : Tree bins) {bins' : List (Bin T N V)} (hp : bins'.Perm bins) :
    ∀ e, MakePlan S (bins'.map (Bin.toQ th order false)) e →
      ∃ rows : List (Row T (AnnoKey N)), e.rows.map (reorderMatch d (inversePos e.pos)) = rows.map some ∧ rows.Nodup ∧
        ∀ row, row ∈ rows ↔ IsAnswer env (AnnoStore.spec ops) r d nodes bins row ∧ DifferAlways bins row := by
  intro e he
  obtain ⟨rows, h1, h2, h3⟩ := C98_exact hco hq hS d hp e he
  exact ⟨rows, h1, h2, fun row => by rw [h3, differInOrder_tree ht hp]⟩

end
end Whole
