import Verif.Props.SingleFF
import Verif.Props.SerialWrap

/-!
# Lists with one different key that starts with 0xFF: exact answers, also of a copy (C02, C18)
-/

set_option linter.unusedSectionVars false
set_option autoImplicit false

namespace Surf.Props
open Surf Trie

section
variable [Env] {cfg : Config} {keys : List Key}

/-- Without suffixes a filter of a single key that starts with 0xFF answers `true` to the empty query and to no other. -/
theorem C02_single (h : Setting cfg keys) (hs : Env.strict = false) (hff : Spec.SingleFF keys) (hn : cfg.suffixType = .kNone) :
    ∃ f, Filter.create cfg keys = .ok f ∧ ∀ q, f.lookupKey q = .ok (decide (q = [])) := by
  obtain ⟨f, s, sw, e, hr, hp⟩ := h.create_ff hs hff
  obtain ⟨f', e', hl⟩ := h.lookup_ff hs hff
  rw [e] at e'
  cases e'
  refine ⟨f, e, fun q => ?_⟩
  by_cases hq : q = []
  · subst hq
    obtain ⟨r, e1, h1⟩ := hr.lookup hs h.ok [] (Or.inl hp)
    rw [e1]
    rcases h1 with ⟨t, -, -, rfl⟩ | ⟨hno, -⟩
    · rw [passes_none hn]
      rfl
    · exact absurd (by decide) (hno [0] (by simp))
  · obtain ⟨r, e1, h1⟩ := hl q
    rw [e1, h1 hq]
    simp [hq]

/-- The queries without an empty key. -/
def AskNonEmpty : Call → Prop
  | .lookup k => k ≠ []
  | .range l _ _ _ => l ≠ []
  | .count l _ => l ≠ []

/-- The answer of an empty filter. -/
def nothing : Call → Answer
  | .lookup _ => .bool false
  | .range _ _ _ _ => .bool false
  | .count _ _ => .nat 0

theorem EmptyRoot.lookup {d : LoudsDense} (h : EmptyRoot d) {q : Key} (hq : q ≠ []) : d.lookupKey q = .ok (false, 0) := by
  obtain ⟨b, q', rfl⟩ := List.exists_cons_of_ne_nil hq
  have hb : b.toNat < 256 := b.toNat_lt
  unfold LoudsDense.lookupKey
  rw [h.height, LoudsDense.lookupLoop]
  dsimp only
  rw [if_neg (by simp), show mul32 0 kFanout = 0 from rfl, show (b :: q').getD 0 0 = b from rfl,
    add32_eq (by rw [M32_eq]; omega), Nat.zero_add, Bitvector.readBit_ok h.lab (by rw [List.length_replicate]; omega), ok_bind, zeros_getD, if_pos (by decide)]
  rfl

/-- One query on an object with an empty root. -/
theorem EmptyRoot.call {o : SuRF} (h : EmptyRoot o.filter.dense) (hs : Env.strict = false) (hk : o.iter.dense.key.length = 1)
    (hp : o.iter.dense.pos.length = 1) {c : Call} (hc : AskNonEmpty c) :
    ∃ o', Props.call o c = .ok (nothing c, o') ∧ o'.filter = o.filter ∧ o'.iter.dense.key.length = 1 ∧ o'.iter.dense.pos.length = 1 := by
  cases c with
  | lookup k =>
    unfold Props.call SuRF.lookupKey Filter.lookupKey
    dsimp only
    rw [h.lookup hc]
    exact ⟨o, rfl, rfl, hk, hp⟩
  | range l li r ri =>
    unfold Props.call SuRF.lookupRange Filter.lookupRange Filter.rangeSeek
    dsimp only
    obtain ⟨d, e1, hv, h1, h2⟩ := h.seek hs (q := l) hc li (it := o.iter.clear.dense) (by simpa [Iter.clear, DIter.clear] using hk)
      (by simpa [Iter.clear, DIter.clear] using hp) rfl rfl
    rw [e1, ok_bind]
    dsimp only
    rw [hv, if_pos (by decide), pure_bind, if_pos (by unfold Iter.isValid; simp [hv]), pure_bind]
    exact ⟨_, rfl, rfl, h1, h2⟩
  | count l r =>
    unfold Props.call SuRF.approxCount Filter.approxCount Filter.moveToKeyGreaterThan
    dsimp only
    obtain ⟨d, e1, hv, h1, h2⟩ := h.seek hs (q := l) hc true (it := (Iter.new o.filter).dense) (by simp [Iter.new, DIter.new, h.height])
      (by simp [Iter.new, DIter.new, h.height]) rfl rfl
    rw [e1, ok_bind]
    dsimp only
    rw [hv, if_pos (by decide), pure_bind, if_pos (by unfold Iter.isValid; simp [hv]), pure_bind]
    exact ⟨_, rfl, rfl, h1, h2⟩

theorem EmptyRoot.answers {g : Filter} (h : EmptyRoot g.dense) (hs : Env.strict = false) (cs : List Call) (hc : ∀ c ∈ cs, AskNonEmpty c) {o : SuRF} (hf : o.filter = g)
    (hk : o.iter.dense.key.length = 1) (hp : o.iter.dense.pos.length = 1) : Props.answers o cs = .ok (cs.map nothing) := by
  induction cs generalizing o with
  | nil => rfl
  | cons c cs ih =>
    obtain ⟨o', e, h1, h2, h3⟩ := EmptyRoot.call (o := o) (by rw [hf]; exact h) hs hk hp (hc c (by simp))
    rw [Props.answers, e, ok_bind]
    dsimp only
    rw [ih (fun x hx => hc x (by simp [hx])) (h1.trans hf) h2 h3]
    rfl

/-- C18 for a single different key that starts with 0xFF: the filter and every copy of it give the answers of an empty filter to every sequence of queries with
non-empty keys. -/
theorem C18_single (h : Setting cfg keys) (hs : Env.strict = false) (hff : Spec.SingleFF keys) :
    ∃ o, SuRF.create cfg keys = .ok o ∧ ∀ base fresh, base % 8 = 0 → ∃ data, o.filter.serialize base fresh = .ok data ∧
      ∀ base' post it2, base' % 8 = 0 → ∃ o', SuRF.deSerialize base' (data ++ post) it2 = .ok o' ∧
        ∀ cs, (∀ c ∈ cs, AskNonEmpty c) → answers o cs = .ok (cs.map nothing) ∧ answers o' cs = .ok (cs.map nothing) := by
  obtain ⟨f, s, sw, e, hr, hp⟩ := h.create_ff hs hff
  have hd := emptyRoot hr
  refine ⟨⟨f, Iter.new f, Iter.new f⟩, by unfold SuRF.create; rw [e]; rfl, fun base fresh hb => ?_⟩
  obtain ⟨data, e1, -, -, h1⟩ := Filter.roundtrip (hr.filterWf h.ok (by decide)) hb fresh
  refine ⟨data, e1, fun base' post it2 hb' => ?_⟩
  refine ⟨⟨f.trim, Iter.new f.trim, it2⟩, by unfold SuRF.deSerialize; rw [h1 base' post hb']; rfl, fun cs hc => ⟨?_, ?_⟩⟩
  · exact hd.answers hs cs hc rfl (by simp [Iter.new, DIter.new, hd.height]) (by simp [Iter.new, DIter.new, hd.height])
  · have hd' : EmptyRoot f.trim.dense := hd
    exact hd'.answers hs cs hc rfl (by simp [Iter.new, DIter.new, hd'.height]) (by simp [Iter.new, DIter.new, hd'.height])

end

/-- The hypotheses are met by the list with the only key 0xFF 0x01; on it the model answers the empty query with `true` and a query for the stored key, before and behind a range query, with
`false`. -/
example : Setting cfgNone [[255, 1]] ∧ Spec.SingleFF [[255, 1]] ∧ (@Filter.create Env.x86 cfgNone [[255, 1]] >>= fun f => @Filter.lookupKey Env.x86 f []) = .ok true ∧
    (@SuRF.create Env.x86 cfgNone [[255, 1]] >>= fun o => @answers Env.x86 o [.lookup [255, 1], .range [0] true [255, 2] true, .count [0] [255, 2], .lookup [255, 1]]) =
      .ok [.bool false, .bool false, .nat 0, .bool false] :=
  ⟨C53_example.1, C53_example.2.1, by decide +kernel, by decide +kernel⟩

end Surf.Props
