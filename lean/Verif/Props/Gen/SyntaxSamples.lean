import Verif.Props.Gen.SyntaxComplete

/-!
# C101: samples
-/

namespace Props
open Gen Spec Spec.Syntax

/-! ## A schema, derived from the rules -/

def langWords : List Token :=
  [key "namespace", .word ['n'], .mark '{', .comment, .comment,
   key "enum", .word ['E'], .mark ':', key "u8", .mark ':', .word ['2'], .mark '{', .word ['A'], .mark ',', .comment, .word ['B'], .mark '=', .word "0x3".toList, .mark ',', .mark '}',
   key "struct", .word ['S'], .mark '{', .comment, key "@const", .mark '(', .word ".n.C".toList, .mark ')', .word ['f'], .mark ':', .word ['E'], .mark ';', .mark '}',
   .mark '}', .comment]

def langBlock : PBlock where
  name := ['n']
  constants := []
  structures := [⟨['S'], [⟨['f'], [.constRef ".n.C".toList], ['E'], none⟩]⟩]
  enumerations := [⟨['E'], .u8, some 2, [(['A'], none), (['B'], some 3)]⟩]
  archives := []

theorem lang_dotted {c : Char} (h : IdStart c ∨ c = '.') : Dotted [c] := ⟨⟨c, rfl, h⟩, fun d hd => by
  rw [List.mem_singleton.mp hd]
  exact h.imp .inl id⟩

theorem C101_sample_rules : Schema [langBlock] langWords := by
  have hE : Enumeration ⟨['E'], .u8, some 2, [(['A'], none), (['B'], some 3)]⟩ [key "enum", .word ['E'], .mark ':', key "u8", .mark ':', .word ['2'], .mark '{', .word ['A'], .mark ',', .comment,
      .word ['B'], .mark '=', .word "0x3".toList, .mark ',', .mark '}'] :=
    .mk (wl := [.mark ':', .word ['2']]) (vl := [.word ['A'], .mark ',', .comment, .word ['B'], .mark '=', .word "0x3".toList]) (comma := [.mark ',']) (by decide)
      (.some (.one (by unfold Digit; decide)))
      (.more (l := [.word ['A']]) (.implicit (doc := []) (by decide) (.inl rfl))
        (.one (.explicit (doc := [.comment]) (by decide) (.inr rfl) (.plain (.hexadecimal (.one (by unfold Digit; decide)))))))
      (.inr rfl)
  have hS : Struct ⟨['S'], [⟨['f'], [.constRef ".n.C".toList], ['E'], none⟩]⟩ [key "struct", .word ['S'], .mark '{', .comment, key "@const", .mark '(', .word ".n.C".toList, .mark ')', .word ['f'],
      .mark ':', .word ['E'], .mark ';', .mark '}'] :=
    .mk (fl := [.comment, key "@const", .mark '(', .word ".n.C".toList, .mark ')', .word ['f'], .mark ':', .word ['E'], .mark ';']) (by decide)
      (.cons (ls := []) (Syntax.Field.mk (doc := [.comment]) (wl := []) (.inr rfl) (.cons (ls := []) (FieldDecoration.constRef ⟨⟨'.', rfl, .inr rfl⟩, by decide⟩) .nil) (by decide) (lang_dotted (.inl (by decide))) .none) .nil) (by simp)
  have hN : Namespace langBlock langWords :=
    .mk (nl := [key "namespace", .word ['n']]) (doc := [.comment]) (.apart (lang_dotted (.inl (by decide)))) (.comment (.comment (.enumeration hE (.struct hS .nil)))) (.inr rfl)
  exact .mk (k := 0) (.cons (ls := []) hN .nil) (by simp)

/-! ## Texts -/

def langText : Text := "namespace n{//
/* two comments */ enum E:u8:2 { A, /* the last one */ B = 0x3, } struct S{ /**/ @const(.n.C) f : E; } } // end".toList

/-- The text is accepted; so it is a schema. -/
theorem C101_sample_accepts : ∃ ts, Tokens langText ts ∧ Schema [langBlock] ts := (C101_language (by decide +kernel) _).mp (by decide +kernel)

/-- Names before the field are joined: this is the field `f` of `.n.ST`. -/
theorem C101_sample_joined : ∃ ts, Tokens "namespace n { archive A { @explicit_reference( .n . S T.f, .n.A.v ) v : vector< .n.ST >; } }".toList ts ∧
    Schema [⟨['n'], [], [], [], [⟨['A'], [], [⟨['v'], [.explicitReference ".n.ST".toList ['f'] ".n.A.v".toList], .vector ".n.ST".toList⟩]⟩]⟩] ts :=
  (C101_language (by decide +kernel) _).mp (by decide +kernel)

/-- A dot directly after the keyword belongs to the name; `archive` alone is a name. -/
theorem C101_sample_together : ∃ ts, Tokens "namespace.n { archive A { r : archive.n.B; s : archive; } }".toList ts ∧
    Schema [⟨".n".toList, [], [], [], [⟨['A'], [], [⟨['r'], [], .archive ".n.B".toList⟩, ⟨['s'], [], .object "archive".toList⟩]⟩]⟩] ts :=
  (C101_language (by decide +kernel) _).mp (by decide +kernel)

/-- No schemas: a comment after the last value of an enumeration, or after the last field of a structure; two comments before a field, or after a namespace; comments
alone; an empty structure; `vector` as a type. -/
theorem C101_sample_rejects : ∀ s ∈ ["namespace n { enum E : u8 { A, /* last */ } }", "namespace n { struct S { x : u8; /* last */ } }", "namespace n { struct S { /* a */ /* b */ x : u8; } }",
    "namespace n { } /* a */ /* b */", "/* a */", "namespace n { struct S { } }", "namespace n { archive A { r : vector; } }"].map String.toList,
    ∀ ts, Tokens s ts → ∀ blocks, ¬ Schema blocks ts := by
  intro s hs
  simp only [List.map_cons, List.map_nil, List.mem_cons, List.not_mem_nil, or_false] at hs
  rcases hs with rfl | rfl | rfl | rfl | rfl | rfl | rfl <;> exact (C101_rejected (by decide +kernel)).mp (by decide +kernel)

end Props
