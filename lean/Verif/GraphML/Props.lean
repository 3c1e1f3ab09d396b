import Verif.GraphML.Model
import Verif.Text.Props
import Verif.Graph.Props

/-!
# GraphML round trip (C58)
-/

set_option linter.unusedSimpArgs false
set_option linter.unusedSectionVars false

/-! ### Escaping -/

theorem xmlUnescape_cons {c : Char} (h : c ≠ '&') (r : Str) : xmlUnescape (c :: r) = (xmlUnescape r).map (c :: ·) := by
  rw [xmlUnescape.eq_def]
  split <;> simp_all

/-- Unescaping gives back every text. -/
theorem xmlUnescape_escape (s : Str) : xmlUnescape (xmlEscape s) = some s := by
  induction s with
  | nil => simp [xmlEscape, xmlUnescape]
  | cons c r ih =>
    have e : xmlEscape (c :: r) = xmlEscChar c ++ xmlEscape r := by simp [xmlEscape]
    rw [e]
    unfold xmlEscChar
    split
    · rename_i h; subst h
      show xmlUnescape ('&' :: 'l' :: 't' :: ';' :: xmlEscape r) = _
      rw [xmlUnescape, ih]; rfl
    · split
      · rename_i h; subst h
        show xmlUnescape ('&' :: 'g' :: 't' :: ';' :: xmlEscape r) = _
        rw [xmlUnescape, ih]; rfl
      · split
        · rename_i h; subst h
          show xmlUnescape ('&' :: 'a' :: 'm' :: 'p' :: ';' :: xmlEscape r) = _
          rw [xmlUnescape, ih]; rfl
        · split
          · rename_i h; subst h
            show xmlUnescape ('&' :: 'a' :: 'p' :: 'o' :: 's' :: ';' :: xmlEscape r) = _
            rw [xmlUnescape, ih]; rfl
          · split
            · rename_i h; subst h
              show xmlUnescape ('&' :: 'q' :: 'u' :: 'o' :: 't' :: ';' :: xmlEscape r) = _
              rw [xmlUnescape, ih]; rfl
            · rename_i h3 _ _
              show xmlUnescape (c :: xmlEscape r) = _
              rw [xmlUnescape_cons h3, ih]; rfl

theorem xmlEscape_injective {a b : Str} (h : xmlEscape a = xmlEscape b) : a = b := by
  have := xmlUnescape_escape a
  rw [h, xmlUnescape_escape] at this
  exact (Option.some.inj this).symm

/-- Texts without meta characters of XML. -/
def NoXml (s : Str) : Prop := ∀ c ∈ s, c ∉ ['<', '>', '&', '\'', '"']

instance (s : Str) : Decidable (NoXml s) := inferInstanceAs (Decidable (∀ c ∈ s, _))

theorem xmlEscape_eq_self {s : Str} (h : NoXml s) : xmlEscape s = s := by
  induction s with
  | nil => rfl
  | cons c r ih =>
    have e : xmlEscape (c :: r) = xmlEscChar c ++ xmlEscape r := by simp [xmlEscape]
    have hc := h c (by simp)
    simp only [List.mem_cons, List.not_mem_nil, or_false, not_or] at hc
    rw [e, ih fun x hx => h x (List.mem_cons_of_mem _ hx)]
    unfold xmlEscChar
    rw [if_neg hc.1, if_neg hc.2.1, if_neg hc.2.2.1, if_neg hc.2.2.2.1, if_neg hc.2.2.2.2]
    rfl

theorem keyId_injective {a b : Nat} (h : keyId a = keyId b) : a = b := by
  unfold keyId at h
  have := congrArg (fun l => Nat.ofDigitChars 10 l 0) (List.cons.inj h).2
  simpa [Nat.ofDigitChars_ten_toDigits] using this

/-! ### Maps -/

section
variable {K V : Type} [DecidableEq K]

theorem assocInsert_new (m : List (K × V)) (k : K) (v : V) (h : k ∉ m.map Prod.fst) : assocInsert m k v = m ++ [(k, v)] := by
  induction m with
  | nil => rfl
  | cons p r ih =>
    simp only [List.map_cons, List.mem_cons, not_or] at h
    rw [assocInsert, if_neg (Ne.symm h.1), ih h.2]
    rfl

theorem assocGet_of_mem {m : List (K × V)} (hn : (m.map Prod.fst).Nodup) {k : K} {v : V} (h : (k, v) ∈ m) :
    assocGet m k = some v := by
  induction m with
  | nil => cases h
  | cons p r ih =>
    simp only [List.map_cons, List.nodup_cons] at hn
    unfold assocGet
    rw [List.find?_cons]
    by_cases e : p.1 = k
    · simp only [e, decide_true]
      rcases List.mem_cons.1 h with rfl | h
      · rfl
      · exact absurd (List.mem_map_of_mem (f := Prod.fst) h) (e ▸ hn.1)
    · simp only [e, decide_false]
      rcases List.mem_cons.1 h with rfl | h
      · exact absurd rfl e
      · exact ih hn.2 h

theorem assocGet_none {m : List (K × V)} {k : K} : assocGet m k = none ↔ k ∉ m.map Prod.fst := by
  unfold assocGet
  rw [Option.map_eq_none_iff, List.find?_eq_none]
  constructor
  · intro h hm
    obtain ⟨p, hp, he⟩ := List.mem_map.1 hm
    exact h p hp (by simp [he])
  · intro h p hp hc
    exact h (List.mem_map.2 ⟨p, hp, by simpa using hc⟩)

theorem mem_of_assocGet {m : List (K × V)} {k : K} {v : V} (h : assocGet m k = some v) : (k, v) ∈ m := by
  unfold assocGet at h
  obtain ⟨p, hp, he⟩ := Option.map_eq_some_iff.1 h
  have h1 := List.mem_of_find?_eq_some hp
  have h2 := List.find?_some hp
  simp only [decide_eq_true_eq] at h2
  rw [← h2, ← he]
  exact h1

end

/-! ### Reading what was written -/

section
variable {C : Type} (tk : AnnoKey Str) (parseC : Str → Option C)

theorem RState.run_append (s : RState C) (a b : List Xml) :
    RState.run tk parseC s (a ++ b) = (RState.run tk parseC s a).bind fun s => RState.run tk parseC s b := by
  simp [RState.run, List.foldlM_append]

theorem RState.run_cons (s : RState C) (x : Xml) (r : List Xml) :
    RState.run tk parseC s (x :: r) = (RState.step tk parseC s x).bind fun s => RState.run tk parseC s r := rfl

theorem RState.run_nil (s : RState C) : RState.run tk parseC s [] = some s := rfl

/-- A state inside of a node or edge. -/
def inner (keys : List (Str × AnnoKey Str)) (node src tgt comp : Option Str) (data : Labels) (nu eu : List (Event Str Str C))
    (cfg : Option Str) : RState C := ⟨keys, 3, true, node, none, src, tgt, comp, none, data, nu, eu, cfg⟩

/-- A state between nodes and edges. -/
def outer (keys : List (Str × AnnoKey Str)) (data : Labels) (nu eu : List (Event Str Str C)) (cfg : Option Str) : RState C :=
  ⟨keys, 2, true, none, none, none, none, none, none, data, nu, eu, cfg⟩

theorem run_data (d : GDoc C) (keys : List (Str × AnnoKey Str)) (node src tgt comp : Option Str) (data : Labels)
    (nu eu : List (Event Str Str C)) (cfg : Option Str) (l : AnnoKey Str × Str)
    (hk : assocGet keys (xmlEscape (d.idOf l.1)) = some l.1) (hd : l.1 ∉ data.map Prod.fst) :
    RState.run tk parseC (inner keys node src tgt comp data nu eu cfg) (d.writeData l) =
      some (inner keys node src tgt comp (data ++ [l]) nu eu cfg) := by
  obtain ⟨k, v⟩ := l
  simp only at hk hd
  unfold GDoc.writeData
  simp only
  by_cases hv : v = []
  · subst hv
    simp only [if_true, List.nil_append]
    rw [RState.run_cons]
    simp only [RState.step, inner, xattr, attrOr, List.filter_cons, decide_true, if_true, List.filter_nil,
      List.getLast?_singleton, Option.bind_some]
    rw [RState.run_cons]
    simp only [RState.step, Option.bind_some, hk, Option.getD_none, RState.run_nil, assocInsert_new _ _ _ hd]
  · simp only [hv, if_false, List.cons_append, List.nil_append]
    rw [RState.run_cons]
    simp only [RState.step, inner, xattr, attrOr, List.filter_cons, decide_true, if_true, List.filter_nil,
      List.getLast?_singleton, Option.bind_some]
    rw [RState.run_cons]
    simp only [RState.step, and_self, Option.isSome_some, if_true, xmlUnescape_escape, Option.map_some, Option.bind_some]
    rw [RState.run_cons]
    simp only [RState.step, Option.bind_some, hk, Option.getD_some, RState.run_nil, assocInsert_new _ _ _ hd]

theorem run_datas (d : GDoc C) (keys : List (Str × AnnoKey Str)) (node src tgt comp : Option Str)
    (nu eu : List (Event Str Str C)) (cfg : Option Str) (ls : Labels) :
    ∀ data : Labels, (∀ l ∈ ls, assocGet keys (xmlEscape (d.idOf l.1)) = some l.1) →
      ((data ++ ls).map Prod.fst).Nodup →
      RState.run tk parseC (inner keys node src tgt comp data nu eu cfg) (ls.flatMap d.writeData) =
        some (inner keys node src tgt comp (data ++ ls) nu eu cfg) := by
  induction ls with
  | nil => intro data _ _; simp [RState.run_nil]
  | cons l r ih =>
    intro data hk hn
    simp only [List.flatMap_cons]
    rw [RState.run_append, run_data tk parseC d keys node src tgt comp data nu eu cfg l (hk l (by simp)) (by
      intro hc
      rw [List.map_append, List.nodup_append] at hn
      exact hn.2.2 _ hc _ (by simp) rfl), Option.bind_some]
    have := ih (data ++ [l]) (fun x hx => hk x (List.mem_cons_of_mem _ hx)) (by simpa using hn)
    rw [this]
    simp

theorem run_node (d : GDoc C) (keys : List (Str × AnnoKey Str)) (data : Labels) (nu eu : List (Event Str Str C))
    (cfg : Option Str) (n : Str × Labels) (hx : NoXml n.1)
    (hk : ∀ l ∈ n.2, assocGet keys (xmlEscape (d.idOf l.1)) = some l.1) (hn : (n.2.map Prod.fst).Nodup) :
    RState.run tk parseC (outer keys data nu eu cfg) (d.writeNode n) =
      some (outer keys [] (nu ++ addNodeEvents tk (some n.1) n.2) eu cfg) := by
  unfold GDoc.writeNode
  rw [RState.run_cons]
  have h1 : RState.step tk parseC (outer keys data nu eu cfg) (.start .node [xattr .id n.1]) =
      some (inner keys (some n.1) none none none [] nu eu cfg) := by
    simp [RState.step, outer, inner, xattr, attrOr, xmlEscape_eq_self hx]
  rw [h1, Option.bind_some, RState.run_append, run_datas tk parseC d keys _ _ _ _ nu eu cfg n.2 [] hk (by simpa using hn),
    Option.bind_some]
  simp [RState.run_cons, RState.run_nil, RState.step, outer, inner]

theorem run_nodes (d : GDoc C) (keys : List (Str × AnnoKey Str)) (eu : List (Event Str Str C)) (cfg : Option Str)
    (ns : List (Str × Labels)) : ∀ (data : Labels) (nu : List (Event Str Str C)), (∀ n ∈ ns, NoXml n.1) →
      (∀ n ∈ ns, ∀ l ∈ n.2, assocGet keys (xmlEscape (d.idOf l.1)) = some l.1) → (∀ n ∈ ns, (n.2.map Prod.fst).Nodup) →
      ∃ data', RState.run tk parseC (outer keys data nu eu cfg) (ns.flatMap d.writeNode) =
        some (outer keys data' (nu ++ ns.flatMap fun n => addNodeEvents tk (some n.1) n.2) eu cfg) := by
  induction ns with
  | nil => intro data nu _ _ _; exact ⟨data, by simp [RState.run_nil]⟩
  | cons n r ih =>
    intro data nu hx hk hn
    obtain ⟨data', h⟩ := ih [] (nu ++ addNodeEvents tk (some n.1) n.2) (fun x h => hx x (List.mem_cons_of_mem _ h))
      (fun x h => hk x (List.mem_cons_of_mem _ h)) (fun x h => hn x (List.mem_cons_of_mem _ h))
    refine ⟨data', ?_⟩
    simp only [List.flatMap_cons]
    rw [RState.run_append, run_node tk parseC d keys data nu eu cfg n (hx n (by simp)) (hk n (by simp)) (hn n (by simp)),
      Option.bind_some, h]
    simp

/-- The events of an exported edge. -/
def edgeEvents (e : Str × Str × C × Labels) : List (Event Str Str C) :=
  .addEdge e.1 e.2.1 (some e.2.2.1) :: e.2.2.2.map fun p => .addEdgeLabel e.1 e.2.1 (some e.2.2.1) p.1 p.2

theorem run_edge (printC : C → Str) (d : GDoc C) (keys : List (Str × AnnoKey Str)) (data : Labels)
    (nu eu : List (Event Str Str C)) (cfg : Option Str) (e : Str × Str × C × Labels) (hx : NoXml e.1) (hy : NoXml e.2.1)
    (hc : NoXml (printC e.2.2.1)) (hp : parseC (printC e.2.2.1) = some e.2.2.1)
    (hk : ∀ l ∈ e.2.2.2, assocGet keys (xmlEscape (d.idOf l.1)) = some l.1) (hn : (e.2.2.2.map Prod.fst).Nodup) :
    RState.run tk parseC (outer keys data nu eu cfg) (d.writeEdge printC e) =
      some (outer keys [] nu (eu ++ edgeEvents e) cfg) := by
  unfold GDoc.writeEdge
  rw [RState.run_cons]
  have h1 : RState.step tk parseC (outer keys data nu eu cfg)
      (.start .edge [xattr .source e.1, xattr .target e.2.1, xattr .label (printC e.2.2.1)]) =
      some (inner keys none (some e.1) (some e.2.1) (some (printC e.2.2.1)) [] nu eu cfg) := by
    simp [RState.step, outer, inner, xattr, attrOr, xmlEscape_eq_self hx, xmlEscape_eq_self hy, xmlEscape_eq_self hc]
  rw [h1, Option.bind_some, RState.run_append,
    run_datas tk parseC d keys _ _ _ _ nu eu cfg e.2.2.2 [] hk (by simpa using hn), Option.bind_some]
  simp [RState.run_cons, RState.run_nil, RState.step, outer, inner, hp, addEdgeEvents, edgeEvents]

theorem run_edges (printC : C → Str) (d : GDoc C) (keys : List (Str × AnnoKey Str)) (nu : List (Event Str Str C))
    (cfg : Option Str) (es : List (Str × Str × C × Labels)) : ∀ (data : Labels) (eu : List (Event Str Str C)),
      (∀ e ∈ es, NoXml e.1 ∧ NoXml e.2.1 ∧ NoXml (printC e.2.2.1) ∧ parseC (printC e.2.2.1) = some e.2.2.1) →
      (∀ e ∈ es, ∀ l ∈ e.2.2.2, assocGet keys (xmlEscape (d.idOf l.1)) = some l.1) →
      (∀ e ∈ es, (e.2.2.2.map Prod.fst).Nodup) →
      ∃ data', RState.run tk parseC (outer keys data nu eu cfg) (es.flatMap (d.writeEdge printC)) =
        some (outer keys data' nu (eu ++ es.flatMap edgeEvents) cfg) := by
  induction es with
  | nil => intro data eu _ _ _; exact ⟨data, by simp [RState.run_nil]⟩
  | cons e r ih =>
    intro data eu hx hk hn
    obtain ⟨data', h⟩ := ih [] (eu ++ edgeEvents e) (fun x h => hx x (List.mem_cons_of_mem _ h))
      (fun x h => hk x (List.mem_cons_of_mem _ h)) (fun x h => hn x (List.mem_cons_of_mem _ h))
    refine ⟨data', ?_⟩
    obtain ⟨x1, x2, x3, x4⟩ := hx e (by simp)
    simp only [List.flatMap_cons]
    rw [RState.run_append, run_edge tk parseC printC d keys data nu eu cfg e x1 x2 x3 x4 (hk e (by simp)) (hn e (by simp)),
      Option.bind_some, h]
    simp

/-- A state while reading the keys. -/
def header (keys : List (Str × AnnoKey Str)) : RState C :=
  ⟨keys, 1, false, none, none, none, none, none, none, [], [], [], none⟩

/-- The annotation key which is read for an exported key. -/
def readKey (k : AnnoKey Str) : AnnoKey Str :=
  let s := splitQName (xmlEscape (joinQName k.ns k.name))
  AnnoKey.mk (s.1.getD []) s.2

theorem run_key (keys : List (Str × AnnoKey Str)) (id : Str) (k : AnnoKey Str) (h : xmlEscape id ∉ keys.map Prod.fst) :
    RState.run tk parseC (header keys) (writeKey id k) = some (header (keys ++ [(xmlEscape id, readKey k)])) := by
  simp [writeKey, RState.run_cons, RState.run_nil, RState.step, header, xattr, attrOr, addKey, assocInsert_new _ _ _ h, readKey]

theorem run_keys (d : GDoc C) (ks : List (AnnoKey Str)) : ∀ keys : List (Str × AnnoKey Str),
    ((keys.map Prod.fst) ++ ks.map fun k => xmlEscape (d.idOf k)).Nodup →
    RState.run tk parseC (header keys) (ks.flatMap fun k => writeKey (d.idOf k) k) =
      some (header (keys ++ ks.map fun k => (xmlEscape (d.idOf k), readKey k))) := by
  induction ks with
  | nil => intro keys _; simp [RState.run_nil]
  | cons k r ih =>
    intro keys hn
    simp only [List.flatMap_cons]
    rw [RState.run_append, run_key tk parseC keys _ k (by
      intro hc
      rw [List.nodup_append] at hn
      exact hn.2.2 _ hc _ (by simp) rfl), Option.bind_some, ih _ (by simpa using hn)]
    simp

/-- The numbers of the keys are different. -/
theorem idOf_inj (d : GDoc C) {k k' : AnnoKey Str} (hk : k ∈ d.keys) (h : d.idOf k = d.idOf k') : k = k' := by
  have := keyId_injective h
  have h1 : d.keys.idxOf k = d.keys.idxOf k' := by omega
  exact List.idxOf_inj hk |>.1 h1

/-- An annotation key that survives the round trip. -/
def PlainKey (k : AnnoKey Str) : Prop :=
  (∀ c, c ∈ k.ns ∨ c ∈ k.name → c.toNat < 128 ∧ qnameSet (UInt8.ofNat c.toNat) = false) ∧ NoXml k.ns ∧ NoXml k.name

theorem readKey_plain {k : AnnoKey Str} (h : PlainKey k) : readKey k = k := by
  obtain ⟨h1, h2, h3⟩ := h
  have hj : joinQName k.ns k.name = (if k.ns ≠ [] then k.ns ++ [':', ':'] else []) ++ k.name := by
    unfold joinQName
    rw [pctEncode_eq_self fun c hc => h1 c (Or.inl hc), pctEncode_eq_self fun c hc => h1 c (Or.inr hc)]
  have hx : NoXml (joinQName k.ns k.name) := by
    rw [hj]
    intro c hc
    rcases List.mem_append.1 hc with hc | hc
    · split at hc
      · rcases List.mem_append.1 hc with hc | hc
        · exact h2 c hc
        · simp only [List.mem_cons, List.not_mem_nil, or_false, or_self] at hc
          subst hc; decide
      · simp at hc
    · exact h3 c hc
  unfold readKey
  rw [xmlEscape_eq_self hx, C32_plain_partial _ _ h1]
  have hk : AnnoKey.mk k.ns k.name = k := rfl
  by_cases e : k.ns = []
  · simp only [e, if_true, Option.getD_none]
    rw [← e]; exact hk
  · simp only [e, if_false, Option.getD_some]
    exact hk

/-- Everything that is written is read again. -/
theorem import_export (printC : C → Str) (d : GDoc C) (hkn : d.keys.Nodup) (hpk : ∀ k ∈ d.keys, PlainKey k)
    (hnx : ∀ n ∈ d.nodes, NoXml n.1 ∧ (n.2.map Prod.fst).Nodup ∧ ∀ l ∈ n.2, l.1 ∈ d.keys)
    (hex : ∀ e ∈ d.edges, (NoXml e.1 ∧ NoXml e.2.1 ∧ NoXml (printC e.2.2.1) ∧ parseC (printC e.2.2.1) = some e.2.2.1) ∧
      (e.2.2.2.map Prod.fst).Nodup ∧ ∀ l ∈ e.2.2.2, l.1 ∈ d.keys) :
    importEvents tk parseC (d.export printC) =
      some ((d.nodes.flatMap fun n => addNodeEvents tk (some n.1) n.2) ++ d.edges.flatMap edgeEvents, d.config) := by
  -- the header
  obtain ⟨keys, hkeys, hget⟩ : ∃ keys, RState.run tk parseC (header []) d.writeKeys = some (header keys) ∧
      ∀ k ∈ d.keys, assocGet keys (xmlEscape (d.idOf k)) = some k := by
    have hinj : (d.keys.map fun k => xmlEscape (d.idOf k)).Nodup := by
      rw [List.nodup_map_iff_inj_on hkn]
      intro k hk k' _ he
      exact idOf_inj d hk (xmlEscape_injective he)
    have hlook : ∀ pre : List (Str × AnnoKey Str), (∀ p ∈ pre, ∀ k ∈ d.keys, p.1 ≠ xmlEscape (d.idOf k)) →
        ∀ k ∈ d.keys, assocGet (pre ++ d.keys.map fun k => (xmlEscape (d.idOf k), readKey k)) (xmlEscape (d.idOf k)) = some k := by
      intro pre hpre k hk
      have h1 : assocGet (pre ++ d.keys.map fun k => (xmlEscape (d.idOf k), readKey k)) (xmlEscape (d.idOf k)) =
          assocGet (d.keys.map fun k => (xmlEscape (d.idOf k), readKey k)) (xmlEscape (d.idOf k)) := by
        unfold assocGet
        rw [List.find?_append]
        have : pre.find? (fun p => decide (p.1 = xmlEscape (d.idOf k))) = none := by
          rw [List.find?_eq_none]
          intro p hp
          simpa using hpre p hp k hk
        rw [this]
        rfl
      rw [h1]
      refine assocGet_of_mem ?_ ?_
      · rw [List.map_map]
        exact hinj
      · exact List.mem_map.2 ⟨k, hk, by rw [readKey_plain (hpk k hk)]⟩
    unfold GDoc.writeKeys
    cases hc : d.config with
    | none =>
      refine ⟨_, ?_, hlook [] (by simp)⟩
      simp only [Option.isSome_none, Bool.false_eq_true, if_false, List.nil_append]
      rw [run_keys tk parseC d d.keys [] (by simpa using hinj)]
      rfl
    | some c =>
      have hpre : ∀ k, xmlEscape (keyId 0) ≠ xmlEscape (d.idOf k) := by
        intro k he
        have := keyId_injective (xmlEscape_injective he)
        unfold GDoc.firstId at this
        simp [hc] at this
        omega
      refine ⟨_, ?_, hlook [(xmlEscape (keyId 0), AnnoKey.mk [] "configuration".toList)] ?_⟩
      · simp only [Option.isSome_some, if_true]
        rw [RState.run_append]
        have h0 : RState.run tk parseC (header []) [.start .key [xattr .id (keyId 0), xattr .name "configuration".toList], .stop .key] =
            some (header [(xmlEscape (keyId 0), AnnoKey.mk [] "configuration".toList)]) := by
          have : splitQName (xmlEscape "configuration".toList) = (none, "configuration".toList) := by decide
          simp [RState.run_cons, RState.run_nil, RState.step, header, xattr, attrOr, addKey, assocInsert]
          simpa using congrArg (fun p => AnnoKey.mk (p.1.getD []) p.2) this
        rw [h0, Option.bind_some, run_keys tk parseC d d.keys _ ?_]
        simp only [List.map_cons, List.map_nil, List.cons_append, List.nil_append, List.nodup_cons]
        refine ⟨?_, hinj⟩
        intro hm
        obtain ⟨k, _, he⟩ := List.mem_map.1 hm
        exact hpre k he.symm
      · intro p hp k _
        simp only [List.mem_cons, List.not_mem_nil, or_false] at hp
        subst hp
        exact hpre k
  have hstart : RState.run tk parseC (RState.new : RState C) [.start .graphml []] = some (header []) := rfl
  have hgraph : RState.run tk parseC (header keys : RState C) [.start .graph []] = some (outer keys [] [] [] none) := rfl
  have hcfg : ∃ data, RState.run tk parseC (outer keys [] [] [] none : RState C) d.writeConfig = some (outer keys data [] [] d.config) := by
    unfold GDoc.writeConfig
    cases d.config with
    | none => exact ⟨[], rfl⟩
    | some c =>
      have h0 : xmlEscape (keyId 0) = "k0".toList := by decide
      simp only [RState.run_cons, RState.step, xattr, attrOr, outer, Option.bind_some, h0, List.filter_cons, decide_true, if_true,
        List.filter_nil, List.getLast?_singleton, and_self, RState.run_nil]
      exact ⟨_, rfl⟩
  obtain ⟨data, hcfg⟩ := hcfg
  obtain ⟨data1, hnodes⟩ := run_nodes tk parseC d keys [] d.config d.nodes data [] (fun n hn => (hnx n hn).1)
    (fun n hn l hl => hget _ ((hnx n hn).2.2 l hl)) (fun n hn => (hnx n hn).2.1)
  obtain ⟨data2, hedges⟩ := run_edges tk parseC printC d keys ([] ++ d.nodes.flatMap fun n => addNodeEvents tk (some n.1) n.2)
    d.config d.edges data1 [] (fun e he => (hex e he).1) (fun e he l hl => hget _ ((hex e he).2.2 l hl))
    (fun e he => (hex e he).2.1)
  unfold importEvents GDoc.export
  simp only [RState.run_append]
  rw [hstart, Option.bind_some, hkeys, Option.bind_some, hgraph, Option.bind_some, hcfg, Option.bind_some, hnodes,
    Option.bind_some, hedges, Option.bind_some]
  simp [RState.run_cons, RState.run_nil, RState.step, outer]

end

/-! ### The imported graph -/

section
variable {C : Type} [LinearOrder C]

/-- The document lists a graph: every node with all its labels except for the name, every edge with all its labels. -/
structure Presents (nk tk : AnnoKey Str) (d : GDoc C) (m : GSpec Str Str C) : Prop where
  nodup : (d.nodes.map Prod.fst).Nodup
  node : ∀ n, m.node n = true ↔ n ∈ d.nodes.map Prod.fst
  labelsNodup : ∀ n ∈ d.nodes, (n.2.map Prod.fst).Nodup
  labels : ∀ n ∈ d.nodes, ∀ k, assocGet n.2 k = if k = nk then none else m.label n.1 k
  name : ∀ n, m.node n = true → m.label n nk = some n
  typed : ∀ n, m.node n = true → m.label n tk ≠ none
  labelN : ∀ n k, m.label n k ≠ none → m.node n = true
  edgesNodup : (d.edges.map fun e => (e.1, e.2.1, e.2.2.1)).Nodup
  edge : ∀ c s t, m.edge c s t = true ↔ (s, t, c) ∈ d.edges.map fun e => (e.1, e.2.1, e.2.2.1)
  edgeN : ∀ c s t, m.edge c s t = true → m.node s = true ∧ m.node t = true ∧ s ≠ t
  elabelsNodup : ∀ e ∈ d.edges, (e.2.2.2.map Prod.fst).Nodup
  elabels : ∀ e ∈ d.edges, ∀ k, assocGet e.2.2.2 k = m.eanno e.2.2.1 e.1 e.2.1 k
  eannoN : ∀ c s t k, m.eanno c s t k ≠ none → m.edge c s t = true
  keys : ∀ n ∈ d.nodes, ∀ l ∈ n.2, l.1 ∈ d.keys
  ekeys : ∀ e ∈ d.edges, ∀ l ∈ e.2.2.2, l.1 ∈ d.keys
  keysNodup : d.keys.Nodup

theorem run_cons_spec (nk tk : AnnoKey Str) (m : GSpec Str Str C) (e : Event Str Str C) (r : List (Event Str Str C)) :
    m.run nk tk (e :: r) = (m.step nk tk e).run nk tk r := rfl

theorem run_append_spec (nk tk : AnnoKey Str) (m : GSpec Str Str C) (a b : List (Event Str Str C)) :
    m.run nk tk (a ++ b) = (m.run nk tk a).run nk tk b := by simp [GSpec.run, List.foldl_append]

theorem run_labels (nk tk : AnnoKey Str) (n : Str) (ls : Labels) : ∀ m : GSpec Str Str C, m.node n = true →
    (ls.map Prod.fst).Nodup →
    m.run nk tk (ls.map fun p => .addNodeLabel n p.1 p.2) =
      { m with label := fun x k => if x = n then (match assocGet ls k with | some v => some v | none => m.label x k) else m.label x k } := by
  induction ls with
  | nil =>
    intro m _ _
    simp only [List.map_nil, GSpec.run, List.foldl_nil, assocGet, List.find?_nil, Option.map_none, ite_self]
  | cons p r ih =>
    intro m hm hn
    simp only [List.map_cons, List.nodup_cons] at hn ⊢
    rw [run_cons_spec, ih _ (by simpa [GSpec.step] using hm) hn.2]
    simp only [GSpec.step, hm, and_true]
    congr 1
    funext x k
    by_cases hx : x = n
    · subst hx
      simp only [if_true, true_and]
      by_cases hk : k = p.1
      · subst hk
        have h1 : assocGet r p.1 = none := assocGet_none.2 hn.1
        have h2 : assocGet (p :: r) p.1 = some p.2 := by simp [assocGet]
        rw [h1, h2]
        simp
      · have h2 : assocGet (p :: r) k = assocGet r k := by simp [assocGet, Ne.symm hk]
        rw [h2]
        cases assocGet r k <;> simp [hk]
    · simp [hx]

theorem run_elabels (nk tk : AnnoKey Str) (s t : Str) (c : C) (ls : Labels) : ∀ m : GSpec Str Str C, m.edge c s t = true →
    (ls.map Prod.fst).Nodup →
    m.run nk tk (ls.map fun p => .addEdgeLabel s t (some c) p.1 p.2) =
      { m with eanno := fun d x y k => if d = c ∧ x = s ∧ y = t then (match assocGet ls k with | some v => some v | none => m.eanno d x y k) else m.eanno d x y k } := by
  induction ls with
  | nil =>
    intro m _ _
    simp only [List.map_nil, GSpec.run, List.foldl_nil, assocGet, List.find?_nil, Option.map_none, ite_self]
  | cons p r ih =>
    intro m hm hn
    simp only [List.map_cons, List.nodup_cons] at hn ⊢
    rw [run_cons_spec, ih _ (by simpa [GSpec.step] using hm) hn.2]
    simp only [GSpec.step, Option.some.injEq]
    congr 1
    funext d x y k
    by_cases hx : d = c ∧ x = s ∧ y = t
    · obtain ⟨rfl, rfl, rfl⟩ := hx
      simp only [and_self, if_true, true_and, hm, and_true]
      by_cases hk : k = p.1
      · subst hk
        have h1 : assocGet r p.1 = none := assocGet_none.2 hn.1
        have h2 : assocGet (p :: r) p.1 = some p.2 := by simp [assocGet]
        rw [h1, h2]
        simp
      · have h2 : assocGet (p :: r) k = assocGet r k := by simp [assocGet, Ne.symm hk]
        rw [h2]
        cases assocGet r k <;> simp [hk]
    · have : ¬ (d = c ∧ x = s ∧ y = t ∧ k = p.1 ∧ m.edge d s t = true) := fun h => hx ⟨h.1, h.2.1, h.2.2.1⟩
      simp only [hx, if_false, this]

theorem assocGet_filter (ls : Labels) (tk k : AnnoKey Str) (h : k ≠ tk) :
    assocGet (ls.filter fun p => p.1 ≠ tk) k = assocGet ls k := by
  induction ls with
  | nil => rfl
  | cons p r ih =>
    rw [List.filter_cons]
    by_cases hp : p.1 = tk
    · have : p.1 ≠ k := fun e => h (e.symm.trans hp)
      simp only [hp, ne_eq, not_true_eq_false, decide_false, Bool.false_eq_true, if_false]
      rw [show assocGet (p :: r) k = assocGet r k by simp [assocGet, this]]
      simpa using ih
    · simp only [ne_eq, hp, not_false_eq_true, decide_true, if_true]
      by_cases e : p.1 = k
      · simp [assocGet, e]
      · rw [show assocGet (p :: r) k = assocGet r k by simp [assocGet, e],
          show ∀ q, assocGet (p :: q) k = assocGet q k by intro q; simp [assocGet, e]]
        simpa using ih

theorem nodes_spec {nk tk : AnnoKey Str} (hne : nk ≠ tk) {d : GDoc C} {m : GSpec Str Str C} (h : Presents nk tk d m) :
    ∀ (rest done : List (Str × Labels)), d.nodes = done ++ rest →
    ∀ cur : GSpec Str Str C, (∀ x, cur.node x = decide (x ∈ done.map Prod.fst)) →
      (∀ x k, cur.label x k = if x ∈ done.map Prod.fst then m.label x k else none) →
      (cur.edge = fun _ _ _ => false) → (cur.eanno = fun _ _ _ _ => none) →
      cur.run nk tk (rest.flatMap fun n => addNodeEvents tk (some n.1) n.2) =
        ⟨m.node, m.label, fun _ _ _ => false, fun _ _ _ _ => none⟩ := by
  intro rest
  induction rest with
  | nil =>
    intro done hd cur h1 h2 h3 h4
    simp only [List.append_nil] at hd
    simp only [List.flatMap_nil, GSpec.run, List.foldl_nil]
    obtain ⟨a, b, c, e⟩ := cur
    simp only at h1 h2 h3 h4
    subst h3 h4
    congr 1
    · funext x
      rw [h1, ← hd]
      rw [Bool.eq_iff_iff, decide_eq_true_eq, h.node]
    · funext x k
      rw [h2, ← hd]
      split
      · rfl
      · rename_i hx
        cases hl : m.label x k with
        | none => rfl
        | some v => exact absurd ((h.node x).1 (h.labelN x k (by simp [hl]))) hx
  | cons n r ih =>
    intro done hd cur h1 h2 h3 h4
    have hn : n ∈ d.nodes := by rw [hd]; simp
    have hnew : n.1 ∉ done.map Prod.fst := by
      have := h.nodup
      rw [hd, List.map_append, List.nodup_append] at this
      intro hc
      exact this.2.2 _ hc _ (by simp) rfl
    have hnode : m.node n.1 = true := (h.node _).2 (List.mem_map_of_mem hn)
    simp only [List.flatMap_cons]
    rw [run_append_spec]
    refine ih (done ++ [n]) (by simp [hd]) _ ?_ ?_ ?_ ?_ <;>
      (simp only [addNodeEvents]; rw [run_cons_spec])
    all_goals
      rw [run_labels nk tk n.1 _ _ (by simp [GSpec.step, h1, hnew])
        ((List.Sublist.map Prod.fst List.filter_sublist).nodup (h.labelsNodup n hn))]
    · intro x
      simp only [GSpec.step, h1, decide_eq_true_eq, hnew, if_false, List.map_append, List.map_cons, List.map_nil,
        List.mem_append, List.mem_cons, List.not_mem_nil, or_false]
      by_cases hx : x = n.1
      · simp [hx]
      · simp [hx]
    · intro x k
      simp only [GSpec.step, h1, decide_eq_true_eq, hnew, if_false, List.map_append, List.map_cons, List.map_nil,
        List.mem_append, List.mem_cons, List.not_mem_nil, or_false]
      by_cases hx : x = n.1
      · subst hx
        simp only [if_true, or_true]
        by_cases hk : k = nk
        · subst hk
          have : assocGet (n.2.filter fun p => p.1 ≠ tk) k = none := by
            rw [assocGet_filter _ _ _ hne, h.labels n hn, if_pos rfl]
          simp only [ne_eq] at this
          rw [this]
          simp [h.name _ hnode]
        · by_cases hk2 : k = tk
          · subst hk2
            have h5 : assocGet (n.2.filter fun p => p.1 ≠ k) k = none := by
              rw [assocGet_none]
              intro hc
              obtain ⟨p, hp, he⟩ := List.mem_map.1 hc
              have := (List.mem_filter.1 hp).2
              simp [he] at this
            simp only [ne_eq] at h5
            rw [h5]
            simp only [hk, if_false, if_true]
            rw [h.labels n hn, if_neg hk]
            cases hl : m.label n.1 k with
            | none => exact absurd hl (h.typed _ hnode)
            | some v => rfl
          · have h5 := assocGet_filter n.2 tk k hk2
            simp only [ne_eq] at h5
            rw [h5, h.labels n hn, if_neg hk]
            simp only [hk, hk2, if_false]
            cases m.label n.1 k <;> rfl
      · simp only [hx, if_false, or_false]
        exact h2 x k
    · simp only [GSpec.step, h1, decide_eq_true_eq, hnew, if_false]
      exact h3
    · simp only [GSpec.step, h1, decide_eq_true_eq, hnew, if_false]
      exact h4

theorem edges_spec {nk tk : AnnoKey Str} {d : GDoc C} {m : GSpec Str Str C} (h : Presents nk tk d m) :
    ∀ (rest done : List (Str × Str × C × Labels)), d.edges = done ++ rest →
    ∀ cur : GSpec Str Str C, cur.node = m.node → cur.label = m.label →
      (∀ c s t, cur.edge c s t = decide ((s, t, c) ∈ done.map fun e => (e.1, e.2.1, e.2.2.1))) →
      (∀ c s t k, cur.eanno c s t k = if (s, t, c) ∈ done.map (fun e => (e.1, e.2.1, e.2.2.1)) then m.eanno c s t k else none) →
      cur.run nk tk (rest.flatMap edgeEvents) = m := by
  intro rest
  induction rest with
  | nil =>
    intro done hd cur h1 h2 h3 h4
    simp only [List.append_nil] at hd
    simp only [List.flatMap_nil, GSpec.run, List.foldl_nil]
    obtain ⟨a, b, c, e⟩ := cur
    obtain ⟨a', b', c', e'⟩ := m
    simp only at h1 h2 h3 h4
    subst h1 h2
    congr 1
    · funext c s t
      rw [h3, ← hd, Bool.eq_iff_iff, decide_eq_true_eq]
      exact (h.edge c s t).symm
    · funext c s t k
      rw [h4, ← hd]
      split
      · rfl
      · rename_i hx
        cases hl : e' c s t k with
        | none => rfl
        | some v => exact absurd ((h.edge c s t).1 (h.eannoN c s t k (by simp [hl]))) hx
  | cons e r ih =>
    intro done hd cur h1 h2 h3 h4
    have he : e ∈ d.edges := by rw [hd]; simp
    obtain ⟨s0, t0, c0, ls⟩ := e
    have hedge : m.edge c0 s0 t0 = true := (h.edge _ _ _).2 (List.mem_map.2 ⟨_, he, rfl⟩)
    obtain ⟨n1, n2, n3⟩ := h.edgeN _ _ _ hedge
    have hnew : (s0, t0, c0) ∉ done.map fun e => (e.1, e.2.1, e.2.2.1) := by
      have := h.edgesNodup
      rw [hd, List.map_append, List.nodup_append] at this
      intro hc
      exact this.2.2 _ hc _ (by simp) rfl
    simp only [List.flatMap_cons]
    rw [run_append_spec]
    refine ih (done ++ [(s0, t0, c0, ls)]) (by simp [hd]) _ ?_ ?_ ?_ ?_ <;>
      (simp only [edgeEvents]; rw [run_cons_spec])
    all_goals
      rw [run_elabels nk tk s0 t0 c0 _ _ (by simp [GSpec.step, h1, n1, n2, n3]) (h.elabelsNodup _ he)]
    · exact h1
    · exact h2
    · intro c s t
      simp only [GSpec.step, h1, n1, n2, n3, and_true, ne_eq, not_false_eq_true, h3, List.map_append, List.map_cons, List.map_nil,
        List.mem_append, List.mem_cons, List.not_mem_nil, or_false, Prod.mk.injEq, Option.some.injEq]
      by_cases hx : c = c0 ∧ s = s0 ∧ t = t0
      · obtain ⟨rfl, rfl, rfl⟩ := hx
        simp
      · rw [if_neg hx]
        have : ¬ (s = s0 ∧ t = t0 ∧ c = c0) := fun hc => hx ⟨hc.2.2, hc.1, hc.2.1⟩
        simp only [this, or_false]
    · intro c s t k
      simp only [GSpec.step, List.map_append, List.map_cons, List.map_nil, h4,
        List.mem_append, List.mem_cons, List.not_mem_nil, or_false, Prod.mk.injEq]
      by_cases hx : c = c0 ∧ s = s0 ∧ t = t0
      · obtain ⟨rfl, rfl, rfl⟩ := hx
        simp only [and_self, if_true, or_true, hnew, if_false]
        have := h.elabels _ he k
        simp only at this
        rw [this]
        cases m.eanno c s t k <;> rfl
      · rw [if_neg hx]
        have : ¬ (s = s0 ∧ t = t0 ∧ c = c0) := fun hc => hx ⟨hc.2.2, hc.1, hc.2.1⟩
        simp only [this, or_false]

/-- C58, restricted to graphs whose node names, annotation keys and component names contain no XML meta characters, whose
annotation keys are ASCII without blanks, `:` and `%`, and whose components can be parsed (C30): importing an exported graph
gives events which build exactly the same graph, with the same configuration; node types and annotation values are arbitrary.
Missing: the other names (`C58_fails`), and nodes without a node type, which are not exported. -/
theorem C58_graphml_partial {nk tk : AnnoKey Str} (hne : nk ≠ tk) (printC : C → Str) (parseC : Str → Option C)
    (d : GDoc C) (m : GSpec Str Str C) (h : Presents nk tk d m) (hpk : ∀ k ∈ d.keys, PlainKey k)
    (hnx : ∀ n ∈ d.nodes, NoXml n.1)
    (hex : ∀ e ∈ d.edges, NoXml e.1 ∧ NoXml e.2.1 ∧ NoXml (printC e.2.2.1) ∧ parseC (printC e.2.2.1) = some e.2.2.1) :
    ∃ u, importEvents tk parseC (d.export printC) = some (u, d.config) ∧ GSpec.empty.run nk tk u = m := by
  refine ⟨_, import_export tk parseC printC d h.keysNodup hpk ?_ ?_, ?_⟩
  · exact fun n hn => ⟨hnx n hn, h.labelsNodup n hn, h.keys n hn⟩
  · exact fun e he => ⟨hex e he, h.elabelsNodup e he, h.ekeys e he⟩
  · rw [run_append_spec, nodes_spec hne h d.nodes [] (by simp) GSpec.empty (by simp [GSpec.empty]) (by simp [GSpec.empty]) rfl rfl]
    exact edges_spec h d.edges [] (by simp) _ rfl rfl (by simp) (by simp)

/-- C58 for the graph itself: applying the imported events to the empty graph gives a graph that represents the exported one. -/
theorem C58_imported_graph_partial {nk tk : AnnoKey Str} (hne : nk ≠ tk) (printC : C → Str) (parseC : Str → Option C)
    (cap : Nat) (hook : Graph Str Str C → Event Str Str C → Bool)
    (d : GDoc C) (m : GSpec Str Str C) (h : Presents nk tk d m) (hpk : ∀ k ∈ d.keys, PlainKey k)
    (hnx : ∀ n ∈ d.nodes, NoXml n.1)
    (hex : ∀ e ∈ d.edges, NoXml e.1 ∧ NoXml e.2.1 ∧ NoXml (printC e.2.2.1) ∧ parseC (printC e.2.2.1) = some e.2.2.1)
    (u : List (Nat × Event Str Str C)) (hu : importEvents tk parseC (d.export printC) = some (Graph.evs u, d.config))
    (hok : (Graph.applyAll nk tk cap hook Graph.new [u]).2 = true) :
    Graph.Rep nk (Graph.applyAll nk tk cap hook Graph.new [u]).1 m := by
  have hev := import_export tk parseC printC d h.keysNodup hpk (fun n hn => ⟨hnx n hn, h.labelsNodup n hn, h.keys n hn⟩)
    (fun e he => ⟨hex e he, h.elabelsNodup e he, h.ekeys e he⟩)
  obtain ⟨v, hv, hm⟩ := C58_graphml_partial hne printC parseC d m h hpk hnx hex
  have e1 : Graph.evs u = v := by
    rw [hu] at hv
    exact (Prod.mk.inj (Option.some.inj hv)).1
  have hno : ∀ e ∈ Graph.evs [u].flatten, e.NoRename nk := by
    intro e he
    simp only [List.flatten_cons, List.flatten_nil, List.append_nil] at he
    rw [hu] at hev
    rw [(Prod.mk.inj (Option.some.inj hev)).1] at he
    rcases List.mem_append.1 he with he | he
    · obtain ⟨n, hn, he⟩ := List.mem_flatMap.1 he
      simp only [addNodeEvents] at he
      rcases List.mem_cons.1 he with rfl | he
      · trivial
      · obtain ⟨p, hp, rfl⟩ := List.mem_map.1 he
        have hp2 := (List.mem_filter.1 hp).1
        have := assocGet_of_mem (h.labelsNodup n hn) hp2
        rw [h.labels n hn] at this
        intro hc
        simp [hc] at this
    · obtain ⟨x, hx, he⟩ := List.mem_flatMap.1 he
      simp only [edgeEvents] at he
      rcases List.mem_cons.1 he with rfl | he
      · trivial
      · obtain ⟨p, hp, rfl⟩ := List.mem_map.1 he
        trivial
  have := Graph.C22_apply_update hne cap hook [u] hno hok
  simp only [List.flatten_cons, List.flatten_nil, List.append_nil, e1, hm] at this
  exact this

end

/-! ### Examples -/

namespace GraphMLEx

def nk : AnnoKey Str := AnnoKey.mk "annis".toList "node_name".toList
def tk : AnnoKey Str := AnnoKey.mk "annis".toList "node_type".toList
def pos : AnnoKey Str := AnnoKey.mk [] "pos".toList

def na : Str := "a".toList
def nb : Str := "b".toList
def nn : Str := "<NN> & \"x\"".toList
def pc : Str := "Pointing/l/n".toList
def ty : Str := "node".toList

/-- Components are their printed form here. -/
def doc : GDoc Str :=
  ⟨some "cfg".toList, [tk, pos], [(na, [(tk, ty), (pos, nn)]), (nb, [(tk, ty)])],
    [(na, nb, pc, [(pos, [])])]⟩

/-- The abstract graph listed by the document. -/
def graph : GSpec Str Str Str where
  node := fun n => decide (n = na ∨ n = nb)
  label := fun n k =>
    if n = na then (if k = nk then some n else if k = tk then some ty else if k = pos then some nn else none)
    else if n = nb then (if k = nk then some n else if k = tk then some ty else none)
    else none
  edge := fun c s t => decide (c = pc ∧ s = na ∧ t = nb)
  eanno := fun c s t k => if c = pc ∧ s = na ∧ t = nb ∧ k = pos then some [] else none

/-- C58 fails: a node name with an ampersand and an annotation name with a blank are changed. -/
theorem C58_fails :
    (importEvents tk some (GDoc.export id (⟨none, [tk, AnnoKey.mk [] "a b".toList],
      [("x&y".toList, [(tk, "node".toList), (AnnoKey.mk [] "a b".toList, "v".toList)])], []⟩ : GDoc Str))) =
      some ([.addNode "x&amp;y".toList "node".toList, .addNodeLabel "x&amp;y".toList (AnnoKey.mk [] "a%20b".toList) "v".toList], none) := by
  rfl

theorem C58_nonvacuous : Presents nk tk doc graph ∧ (∀ k ∈ doc.keys, PlainKey k) := by
  have hnt : nk ≠ tk := fun h => absurd (congrArg AnnoKey.name h) (by decide)
  have hnp : nk ≠ pos := fun h => absurd (congrArg AnnoKey.name h) (by decide)
  have htp : tk ≠ pos := fun h => absurd (congrArg AnnoKey.name h) (by decide)
  have hab : na ≠ nb := by decide
  have hba : nb ≠ na := hab.symm
  refine ⟨⟨by decide, ?_, ?_, ?_, ?_, ?_, ?_, by decide, ?_, ?_, ?_, ?_, ?_, ?_, ?_, ?_⟩, ?_⟩
  · intro n; simp only [graph, doc, decide_eq_true_eq, List.map_cons, List.map_nil, List.mem_cons, List.not_mem_nil, or_false]
  · intro n hn
    simp only [doc, List.mem_cons, List.not_mem_nil, or_false] at hn
    rcases hn with rfl | rfl
    · simp [htp]
    · simp
  · intro n hn k
    simp only [doc, List.mem_cons, List.not_mem_nil, or_false] at hn
    rcases hn with rfl | rfl
    · simp only [assocGet, graph]
      by_cases h1 : k = nk
      · subst h1; simp [hnt.symm, hnp.symm]
      · by_cases h2 : k = tk
        · subst h2; simp [h1]
        · by_cases h3 : k = pos
          · subst h3; simp [h1, h2, htp]
          · simp [h1, h2, h3, Ne.symm h2, Ne.symm h3]
    · simp only [assocGet, graph]
      by_cases h1 : k = nk
      · subst h1; simp [hnt.symm]
      · by_cases h2 : k = tk
        · subst h2; simp [h1]
        · simp [h1, h2, Ne.symm h2, hba]
  · intro n hn
    simp only [graph, decide_eq_true_eq] at hn ⊢
    rcases hn with rfl | rfl <;> simp
  · intro n hn
    simp only [graph, decide_eq_true_eq] at hn ⊢
    rcases hn with rfl | rfl <;> simp [hnt.symm]
  · intro n k hk
    simp only [graph, decide_eq_true_eq] at hk ⊢
    by_contra hc
    push Not at hc
    simp [hc.1, hc.2] at hk
  · intro c s t
    simp only [graph, doc, decide_eq_true_eq, List.map_cons, List.map_nil, List.mem_cons, List.not_mem_nil, or_false, Prod.mk.injEq]
    exact ⟨fun h => ⟨h.2.1, h.2.2, h.1⟩, fun h => ⟨h.2.2, h.1, h.2.1⟩⟩
  · intro c s t h
    simp only [graph, decide_eq_true_eq] at h ⊢
    obtain ⟨rfl, rfl, rfl⟩ := h
    exact ⟨Or.inl rfl, Or.inr rfl, hab⟩
  · intro e he
    simp only [doc, List.mem_cons, List.not_mem_nil, or_false] at he
    subst he
    simp
  · intro e he k
    simp only [doc, List.mem_cons, List.not_mem_nil, or_false] at he
    subst he
    by_cases h : pos = k
    · subst h; simp [assocGet, graph]
    · simp [assocGet, graph, h, Ne.symm h]
  · intro c s t k h
    simp only [graph, decide_eq_true_eq] at h ⊢
    by_contra hc
    rw [if_neg (fun h => hc ⟨h.1, h.2.1, h.2.2.1⟩)] at h
    exact h rfl
  · intro n hn l hl
    simp only [doc, List.mem_cons, List.not_mem_nil, or_false] at hn
    rcases hn with rfl | rfl <;> simp only [List.mem_cons, List.not_mem_nil, or_false] at hl
    · rcases hl with rfl | rfl <;> simp [doc]
    · subst hl; simp [doc]
  · intro e he l hl
    simp only [doc, List.mem_cons, List.not_mem_nil, or_false] at he
    subst he
    simp only [List.mem_cons, List.not_mem_nil, or_false] at hl
    subst hl
    simp [doc]
  · simp [doc, htp]
  · intro k hk
    simp only [doc, List.mem_cons, List.not_mem_nil, or_false] at hk
    have key : ∀ a b : Str, (∀ c ∈ a ++ b, c.toNat < 128 ∧ qnameSet (UInt8.ofNat c.toNat) = false) →
        ∀ c, c ∈ a ∨ c ∈ b → c.toNat < 128 ∧ qnameSet (UInt8.ofNat c.toNat) = false :=
      fun a b h c hc => h c (List.mem_append.2 hc)
    rcases hk with rfl | rfl
    · exact ⟨key _ _ (by decide), by decide, by decide⟩
    · exact ⟨key _ _ (by decide), by decide, by decide⟩

end GraphMLEx
