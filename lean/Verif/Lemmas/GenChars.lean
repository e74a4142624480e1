import Verif.Lemmas.GenMeaning
import Verif.Props.Gen.Literals

/-! # Characters of schema texts -/

namespace Gen
open Spec Props

/-- The characters that occur in schema texts. -/
def SchemaChar (c : Char) : Prop := IdChar c ∨ c ∈ ['\n', ' ', '{', '}', '(', ')', ':', ';', ',', '.', '<', '>', '@', '=', '-']

instance (c : Char) : Decidable (SchemaChar c) := by unfold SchemaChar; infer_instance

def SchemaChars (t : Text) : Prop := ∀ c ∈ t, SchemaChar c

instance (t : Text) : Decidable (SchemaChars t) := by unfold SchemaChars; infer_instance

theorem schars_append {a b : Text} (ha : SchemaChars a) (hb : SchemaChars b) : SchemaChars (a ++ b) := by
  intro c hc
  rcases List.mem_append.mp hc with h | h
  · exact ha c h
  · exact hb c h

theorem schars_cons {c : Char} {b : Text} (ha : SchemaChar c) (hb : SchemaChars b) : SchemaChars (c :: b) := by
  intro d hd
  rcases List.mem_cons.mp hd with rfl | h
  · exact ha
  · exact hb d h

theorem schars_flatMap {α : Type} {l : List α} {f : α → Text} (h : ∀ x ∈ l, SchemaChars (f x)) : SchemaChars (l.flatMap f) := by
  intro c hc
  obtain ⟨x, hx, hc⟩ := List.mem_flatMap.mp hc
  exact h x hx c hc

theorem schars_ident {n : Text} (h : Ident n) : SchemaChars n := fun c hc => .inl (h.2 c hc)

theorem schars_ns {n : Text} (h : NsName n) : SchemaChars n := fun c hc => .inl (h.2 c hc)

theorem schars_dotted {n : Text} (h : Dotted n) : SchemaChars n := by
  intro c hc
  rcases h.2 c hc with h | rfl
  · exact .inl h
  · decide

theorem schars_nat (n : Nat) : SchemaChars (natText n) := fun c hc => .inl (.inr (natText_digits n c hc))

theorem schars_int (n : Int) : SchemaChars (intText n) := by
  unfold intText
  split
  · exact schars_cons (by decide) (schars_nat _)
  · exact schars_nat _

theorem schars_basic (b : BasicName) : SchemaChars b.text := by cases b <;> decide

theorem schars_comma {l : List Text} (h : ∀ x ∈ l, SchemaChars x) : SchemaChars (commaSeparated l) := by
  induction l with
  | nil => intro c hc; cases hc
  | cons x l ih =>
    cases l with
    | nil => exact h x (by simp)
    | cons y l => exact schars_append (schars_append (h x (by simp)) (by decide)) (ih fun z hz => h z (by simp [hz]))

theorem schars_entry {ok : PResDeco → Prop} (hok : ∀ d, ok d → LooseDeco d) {e : PEntry} (h : NormalEntry ok e) : SchemaChars (entryText e) := by
  have hnl : SchemaChars nl4 := by decide
  cases e with
  | comment => exact h.elim
  | struct s =>
    obtain ⟨h1, _, h3⟩ := h
    refine schars_cons (by decide) (schars_append (by decide) (schars_cons (by decide) (schars_append (schars_ident h1) (schars_cons (by decide) (schars_cons (by decide)
      (schars_append (schars_flatMap ?_) (by decide)))))))
    intro f hf
    obtain ⟨⟨a1, a2, a3⟩, _⟩ := h3 f hf
    refine schars_append (schars_append (schars_append (schars_flatMap ?_) hnl) (schars_ident a1)) (schars_cons (by decide) (schars_cons (by decide) (schars_cons (by decide)
      (schars_append (schars_dotted a2) (schars_cons (by decide) (schars_cons (by decide) (schars_cons (by decide) (schars_append (schars_nat _) (by decide)))))))))
    intro d hd
    have hd := a3 d hd
    cases d <;>
    exact schars_append (schars_append hnl (by decide)) (schars_cons (by decide) (schars_cons (by decide) (schars_append (by first | exact schars_ident hd | exact schars_dotted hd) (by decide))))
  | enumeration e =>
    obtain ⟨h1, _, _, h4⟩ := h
    refine schars_cons (by decide) (schars_append (by decide) (schars_cons (by decide) (schars_append (schars_ident h1) (schars_cons (by decide) (schars_cons (by decide)
      (schars_cons (by decide) (schars_append (schars_basic _) (schars_cons (by decide) (schars_cons (by decide) (schars_cons (by decide) (schars_append (schars_nat _)
      (schars_cons (by decide) (schars_cons (by decide) (schars_append (schars_flatMap ?_) (by decide)))))))))))))))
    intro v hv
    obtain ⟨w, hw, rfl⟩ := List.mem_map.mp hv
    exact schars_append (schars_append (schars_append hnl (schars_ident (h4 w hw).1)) (schars_cons (by decide) (schars_cons (by decide) (schars_cons (by decide) (schars_int _))))) (by decide)
  | constant c =>
    exact schars_cons (by decide) (schars_append (by decide) (schars_cons (by decide) (schars_append (schars_basic _) (schars_cons (by decide) (schars_append (schars_ident h)
      (schars_cons (by decide) (schars_cons (by decide) (schars_cons (by decide) (schars_append (schars_int _) (by decide))))))))))
  | archive a =>
    obtain ⟨h1, h2, h3⟩ := h
    refine schars_append (schars_flatMap ?_) (schars_cons (by decide) (schars_append (by decide) (schars_cons (by decide) (schars_append (schars_ident h1)
      (schars_cons (by decide) (schars_cons (by decide) (schars_append (schars_flatMap ?_) (by decide))))))))
    · intro g hg
      obtain ⟨a1, _, a3⟩ := h2 g hg
      exact schars_cons (by decide) (schars_append (by decide) (schars_cons (by decide) (schars_cons (by decide) (schars_append (schars_ident a1) (schars_cons (by decide)
        (schars_cons (by decide) (schars_cons (by decide) (schars_append (schars_comma fun x hx => schars_dotted (a3 x hx)) (by decide)))))))))
    · intro x hx
      obtain ⟨a1, a2, a3⟩ := h3 x hx
      refine schars_append (schars_append (schars_append (schars_flatMap ?_) hnl) (schars_ident a1)) (schars_cons (by decide) (schars_cons (by decide) (schars_cons (by decide)
        (schars_append ?_ (by decide)))))
      · intro d hd
        have hd := hok d (a3 d hd)
        cases d with
        | explicitReference s f d =>
          obtain ⟨b1, b2, b3⟩ := hd
          exact schars_append (schars_append hnl (by decide)) (schars_cons (by decide) (schars_cons (by decide) (schars_append (schars_dotted b1) (schars_cons (by decide)
            (schars_append (schars_ident b2) (schars_cons (by decide) (schars_cons (by decide) (schars_append (schars_dotted b3) (by decide)))))))))
        | optional => exact schars_append hnl (by decide)
      · cases hty : x.type with
        | vector t =>
          rw [hty] at a2
          exact schars_append (by decide) (schars_cons (by decide) (schars_cons (by decide) (schars_append (schars_dotted a2) (by decide))))
        | multivector w ts =>
          rw [hty] at a2
          exact schars_append (by decide) (schars_cons (by decide) (schars_cons (by decide) (schars_append (schars_nat _) (schars_cons (by decide) (schars_cons (by decide)
            (schars_append (schars_comma fun t ht => schars_dotted (a2.2 t ht)) (by decide)))))))
        | object t => rw [hty] at a2; exact schars_dotted a2.1
        | rawData => decide
        | archive t =>
          rw [hty] at a2
          exact schars_append (by decide) (schars_cons (by decide) (schars_dotted a2))

theorem schars_source {ok : PResDeco → Prop} (hok : ∀ d, ok d → LooseDeco d) {es : List (List Text × PEntry)}
    (h : ∀ e ∈ es, e.1 ≠ [] ∧ (∀ k ∈ e.1, NsName k) ∧ NormalEntry ok e.2) : SchemaChars (sourceText es) := by
  refine schars_append (schars_flatMap ?_) (by decide)
  intro e he
  obtain ⟨_, h2, h3⟩ := h e he
  refine schars_cons (by decide) (schars_append (schars_flatMap ?_) (schars_append (schars_entry hok h3) (schars_flatMap fun _ _ => by decide)))
  intro k hk
  exact schars_cons (by decide) (schars_append (by decide) (schars_cons (by decide) (schars_append (schars_ns (h2 k hk)) (by decide))))

/-- Schema texts consist of these characters. -/
theorem Compiled.schars {t : Tree} (hc : Compiled t) (hf : Flat t) (hb : NoBuiltin t) {q : Path} {n : Tree} (hn : t.descend q = some n)
    (hp : Printable n.kind = true) {x : Text} (h : Schema t q (.ok x)) : SchemaChars x := by
  obtain ⟨order, _, _, _, h4, h5⟩ := hc.schema hf hb hn hp h
  have := schars_source (ok := DecoOk t) (fun d hd => hd.1) h5
  rw [← h4] at this
  exact fun c hcm => this c (by simp [hcm])

theorem schar_ne {c d : Char} (h : SchemaChar c) (hd : ¬ SchemaChar d) : c ≠ d := fun e => hd (e ▸ h)

end Gen
