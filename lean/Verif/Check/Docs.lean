import Verif.Check.Client
import Verif.Model.Calc
import Verif.Model.Synth

/-!
# The documented examples of the crate, run on the model

Every example in the documentation of `src/` and both files of `tests/`, transcribed: each assertion
of the original is an `example` here, in the order of the original, under the file and line where
the code block starts. Values are strings. Node names reached by `let` are written out as the chain
of steps. These are tests of the model on literals, not proofs; they are evidence that the model
behaves like the code where the authors said what the code does.

Not transcribed: the examples of `capacity` (not modelled).
-/

set_option linter.all false

namespace Syntree.Check



/-! `src/builder.rs:31` -/

def d_builder_31_tree? : Option (Tree String) := built? .default
    [.open "root", .open "child", .close, .open "child", .close, .close]
def d_builder_31_tree : Tree String := the d_builder_31_tree?
example : d_builder_31_tree?.isSome = true := by decide +kernel
def d_builder_31_expected? : Option (Tree String) := lit? .default
    [node "root" [node "child" [], node "child" []]]
def d_builder_31_expected : Tree String := the d_builder_31_expected?
example : d_builder_31_expected?.isSome = true := by decide +kernel
example : d_builder_31_tree.eq d_builder_31_expected = some true := by decide +kernel

/-! `src/builder.rs:83` -/

def d_builder_83_tree? : Option (Tree String) := built? .default
    [.open "root", .open "child", .token "token" 5, .close, .open "child2", .close, .close]
def d_builder_83_tree : Tree String := the d_builder_83_tree?
example : d_builder_83_tree?.isSome = true := by decide +kernel
def d_builder_83_expected? : Option (Tree String) := lit? .default
    [node "root" [node "child" [token "token" 5], node "child2" []]]
def d_builder_83_expected : Tree String := the d_builder_83_expected?
example : d_builder_83_expected?.isSome = true := by decide +kernel
example : d_builder_83_tree.eq d_builder_83_expected = some true := by decide +kernel

/-! `src/builder.rs:129` -/

def d_builder_129_tree? : Option (Tree String) := built? ⟨.empty, 32, false⟩
    [.open "root", .open "child", .token "token" 0, .close, .open "child2", .close, .close]
def d_builder_129_tree : Tree String := the d_builder_129_tree?
example : d_builder_129_tree?.isSome = true := by decide +kernel
def d_builder_129_expected? : Option (Tree String) := lit? ⟨.empty, 32, false⟩
    [node "root" [node "child" [empty "token"], node "child2" []]]
def d_builder_129_expected : Tree String := the d_builder_129_expected?
example : d_builder_129_expected?.isSome = true := by decide +kernel
example : d_builder_129_tree.eq d_builder_129_expected = some true := by decide +kernel

/-! `src/builder.rs:186` -/

example : cursor? .default [] = some 0 := by decide +kernel
example : cursor? .default [.open "child"] = some 0 := by decide +kernel
example : cursor? .default [.open "child", .token "lit" 4] = some 4 := by decide +kernel
example : cursor? .default [.open "child", .token "lit" 4, .close] = some 4 := by decide +kernel
def d_builder_186_tree? : Option (Tree String) := built? .default
    [.open "child", .token "lit" 4, .close]
def d_builder_186_tree : Tree String := the d_builder_186_tree?
example : d_builder_186_tree?.isSome = true := by decide +kernel
def d_builder_186_expected? : Option (Tree String) := lit? .default
    [node "child" [token "lit" 4]]
def d_builder_186_expected : Tree String := the d_builder_186_expected?
example : d_builder_186_expected?.isSome = true := by decide +kernel
example : d_builder_186_tree.eq d_builder_186_expected = some true := by decide +kernel

/-! `src/builder.rs:220` -/

example : cursor? .default [] = some 0 := by decide +kernel
example : cursor? .default [.open "child"] = some 0 := by decide +kernel
example : cursor? .default [.open "child", .token "lit" 4] = some 4 := by decide +kernel
example : cursor? .default [.open "child", .token "lit" 4, .close] = some 4 := by decide +kernel
def d_builder_220_tree? : Option (Tree String) := built? .default
    [.open "child", .token "lit" 4, .close]
def d_builder_220_tree : Tree String := the d_builder_220_tree?
example : d_builder_220_tree?.isSome = true := by decide +kernel
def d_builder_220_expected? : Option (Tree String) := lit? .default
    [node "child" [token "lit" 4]]
def d_builder_220_expected : Tree String := the d_builder_220_expected?
example : d_builder_220_expected?.isSome = true := by decide +kernel
example : d_builder_220_tree.eq d_builder_220_expected = some true := by decide +kernel

/-! `src/builder.rs:260` -/

/-! `src/builder.rs:296` -/

def d_builder_296_tree? : Option (Tree String) := built? .default
    [.open "root", .openWith "child" ⟨0, 3⟩, .close, .openWith "child" ⟨3, 6⟩, .close, .close]
def d_builder_296_tree : Tree String := the d_builder_296_tree?
example : d_builder_296_tree?.isSome = true := by decide +kernel
def d_builder_296_expected? : Option (Tree String) := lit? .default
    [nodeWith "root" ⟨0, 6⟩ [nodeWith "child" ⟨0, 3⟩ [], nodeWith "child" ⟨3, 6⟩ []]]
def d_builder_296_expected : Tree String := the d_builder_296_expected?
example : d_builder_296_expected?.isSome = true := by decide +kernel
example : d_builder_296_tree.eq d_builder_296_expected = some true := by decide +kernel

/-! `src/builder.rs:345` -/

/-! `src/builder.rs:394` -/

def d_builder_394_tree? : Option (Tree String) := built? .default
    [.open "child", .token "lit" 4, .close]
def d_builder_394_tree : Tree String := the d_builder_394_tree?
example : d_builder_394_tree?.isSome = true := by decide +kernel
def d_builder_394_expected? : Option (Tree String) := lit? .default
    [node "child" [token "lit" 4]]
def d_builder_394_expected : Tree String := the d_builder_394_expected?
example : d_builder_394_expected?.isSome = true := by decide +kernel
example : d_builder_394_tree.eq d_builder_394_expected = some true := by decide +kernel

/-! `src/builder.rs:441` -/

def d_builder_441_tree? : Option (Tree String) := built? .default
    [.openWith "child" ⟨0, 10⟩, .tokenWith "lit" ⟨2, 4⟩, .tokenWith "lit2" ⟨4, 6⟩, .close]
def d_builder_441_tree : Tree String := the d_builder_441_tree?
example : d_builder_441_tree?.isSome = true := by decide +kernel
def d_builder_441_expected? : Option (Tree String) := lit? .default
    [nodeWith "child" ⟨0, 10⟩ [tokenWith "lit" ⟨2, 4⟩, tokenWith "lit2" ⟨4, 6⟩]]
def d_builder_441_expected : Tree String := the d_builder_441_expected?
example : d_builder_441_expected?.isSome = true := by decide +kernel
example : d_builder_441_tree.eq d_builder_441_expected = some true := by decide +kernel

/-! `src/builder.rs:466` -/

def d_builder_466_tree? : Option (Tree String) := built? .default
    [.open "child", .tokenWith "lit" ⟨2, 4⟩, .tokenWith "lit2" ⟨4, 6⟩, .token "lit3" 6, .close]
def d_builder_466_tree : Tree String := the d_builder_466_tree?
example : d_builder_466_tree?.isSome = true := by decide +kernel
def d_builder_466_expected? : Option (Tree String) := lit? .default
    [nodeWith "child" ⟨0, 6⟩ [tokenWith "lit" ⟨2, 4⟩, tokenWith "lit2" ⟨4, 6⟩,
      tokenWith "lit3" ⟨6, 12⟩]]
def d_builder_466_expected : Tree String := the d_builder_466_expected?
example : d_builder_466_expected?.isSome = true := by decide +kernel
example : d_builder_466_tree.eq d_builder_466_expected = some true := by decide +kernel

/-! `src/builder.rs:522` -/

def d_builder_522_tree? : Option (Tree String) := built? .default
    [.open "child", .tokenEmpty "lit", .close]
def d_builder_522_tree : Tree String := the d_builder_522_tree?
example : d_builder_522_tree?.isSome = true := by decide +kernel
def d_builder_522_expected? : Option (Tree String) := lit? .default
    [node "child" [empty "lit"]]
def d_builder_522_expected : Tree String := the d_builder_522_expected?
example : d_builder_522_expected?.isSome = true := by decide +kernel
example : d_builder_522_tree.eq d_builder_522_expected = some true := by decide +kernel

/-! `src/builder.rs:556` -/

def d_builder_556_unexpected? : Option (Tree String) := lit? .default
    [node "root" [empty "child"]]
def d_builder_556_unexpected : Tree String := the d_builder_556_unexpected?
example : d_builder_556_unexpected?.isSome = true := by decide +kernel
-- with both builders: at the end of this file

/-! `src/builder.rs:595` -/

def d_builder_595_tree? : Option (Tree String) := built? .default
    [.checkpoint, .open "child", .token "lit" 3, .close, .closeAt 0 "root"]
def d_builder_595_tree : Tree String := the d_builder_595_tree?
example : d_builder_595_tree?.isSome = true := by decide +kernel
def d_builder_595_expected? : Option (Tree String) := lit? .default
    [node "root" [node "child" [token "lit" 3]]]
def d_builder_595_expected : Tree String := the d_builder_595_expected?
example : d_builder_595_expected?.isSome = true := by decide +kernel
example : d_builder_595_tree.eq d_builder_595_expected = some true := by decide +kernel

/-! `src/builder.rs:643` -/

def d_builder_643_tree? : Option (Tree String) := built? .default
    [.checkpoint, .token "lit" 3, .closeAt 0 "root"]
def d_builder_643_tree : Tree String := the d_builder_643_tree?
example : d_builder_643_tree?.isSome = true := by decide +kernel
def d_builder_643_expected? : Option (Tree String) := lit? .default
    [node "root" [token "lit" 3]]
def d_builder_643_expected : Tree String := the d_builder_643_expected?
example : d_builder_643_expected?.isSome = true := by decide +kernel
example : d_builder_643_tree.eq d_builder_643_expected = some true := by decide +kernel

/-! `src/builder.rs:664` -/

def d_builder_664_tree? : Option (Tree String) := built? .default
    [.checkpoint, .open "number", .token "lit" 3, .close, .token "whitespace" 1, .open "number",
      .token "lit" 2, .close, .closeAt 0 "root"]
def d_builder_664_tree : Tree String := the d_builder_664_tree?
example : d_builder_664_tree?.isSome = true := by decide +kernel
def d_builder_664_expected? : Option (Tree String) := lit? .default
    [node "root" [node "number" [token "lit" 3], token "whitespace" 1,
      node "number" [token "lit" 2]]]
def d_builder_664_expected : Tree String := the d_builder_664_expected?
example : d_builder_664_expected?.isSome = true := by decide +kernel
example : d_builder_664_tree.eq d_builder_664_expected = some true := by decide +kernel

/-! `src/builder.rs:701` -/

def d_builder_701_tree? : Option (Tree String) := built? .default
    [.checkpoint, .open "child", .token "lit" 3, .close, .closeAt 0 "root", .token "sibling" 3]
def d_builder_701_tree : Tree String := the d_builder_701_tree?
example : d_builder_701_tree?.isSome = true := by decide +kernel
example : (d_builder_701_tree.withRange 0 3).value = some "child" := by decide +kernel
example : d_builder_701_tree.firstRef.first.first.value = some "lit" := by decide +kernel
def d_builder_701_expected? : Option (Tree String) := lit? .default
    [node "root" [node "child" [token "lit" 3]], token "sibling" 3]
def d_builder_701_expected : Tree String := the d_builder_701_expected?
example : d_builder_701_expected?.isSome = true := by decide +kernel
example : d_builder_701_tree.eq d_builder_701_expected = some true := by decide +kernel
example : let lit := d_builder_701_tree.firstRef.first.first
    (lit.ancestors.values.bind List.getLast?) = some (some "root") := by decide +kernel
example : d_builder_701_tree.firstRef.first.first.parent.parent.value = some "root" := by
  decide +kernel
example : d_builder_701_tree.firstRef.first.first.parent.parent.parent.id = none := by
  decide +kernel

/-! `src/builder.rs:823` -/

def d_builder_823_tree? : Option (Tree String) := built? .default
    [.checkpoint, .tokenWith "lit" ⟨1, 3⟩, .closeAtWith 0 "custom" ⟨0, 6⟩, .tokenWith "lit2" ⟨6,
      8⟩]
def d_builder_823_tree : Tree String := the d_builder_823_tree?
example : d_builder_823_tree?.isSome = true := by decide +kernel
example : d_builder_823_tree.firstRef.value = some "custom" := by decide +kernel
example : d_builder_823_tree.firstRef.span = some ⟨0, 6⟩ := by decide +kernel

/-! `src/builder.rs:927` -/

def d_builder_927_tree? : Option (Tree String) := built? .default
    [.open "child", .token "number" 3, .close, .open "child", .close]
def d_builder_927_tree : Tree String := the d_builder_927_tree?
example : d_builder_927_tree?.isSome = true := by decide +kernel
def d_builder_927_expected? : Option (Tree String) := lit? .default
    [node "child" [token "number" 3], node "child" []]
def d_builder_927_expected : Tree String := the d_builder_927_expected?
example : d_builder_927_expected?.isSome = true := by decide +kernel
example : d_builder_927_tree.eq d_builder_927_expected = some true := by decide +kernel

/-! `src/builder.rs:951` -/

example : ((after? .default
    [.open "number", .token "lit" 3, .close, .open "number"]).map fun s =>
    err? s.b.build) = some (some .buildError) := by decide +kernel

/-! `src/tree.rs:79` -/

def d_tree_79_tree? : Option (Tree String) := lit? .default
    [node "root" [node "number" [token "lit" 5], node "ident" [token "lit" 3]],
      node "root2" [token "whitespace" 5]]
def d_tree_79_tree : Tree String := the d_tree_79_tree?
example : d_tree_79_tree?.isSome = true := by decide +kernel
example : d_tree_79_tree.getSpan = ⟨0, 13⟩ := by decide +kernel

/-! `src/tree.rs:112` -/

def d_tree_112_tree? : Option (Tree String) := built? .default
    []
def d_tree_112_tree : Tree String := the d_tree_112_tree?
example : d_tree_112_tree?.isSome = true := by decide +kernel
example : d_tree_112_tree.len = 0 := by decide +kernel
def d_tree_112_tree'? : Option (Tree String) := lit? .default
    [node "root" [node "child" [token "token" 2], token "whitespace" 1, node "child2" []]]
def d_tree_112_tree' : Tree String := the d_tree_112_tree'?
example : d_tree_112_tree'?.isSome = true := by decide +kernel
example : d_tree_112_tree'.len = 5 := by decide +kernel

/-! `src/tree.rs:140` -/

def d_tree_140_tree? : Option (Tree String) := built? .default
    []
def d_tree_140_tree : Tree String := the d_tree_140_tree?
example : d_tree_140_tree?.isSome = true := by decide +kernel
example : d_tree_140_tree.isEmpty = true := by decide +kernel

/-! `src/tree.rs:154` -/

def d_tree_154_tree? : Option (Tree String) := built? .default
    []
def d_tree_154_tree : Tree String := the d_tree_154_tree?
example : d_tree_154_tree?.isSome = true := by decide +kernel
def d_tree_154_tree'? : Option (Tree String) := lit? .default
    [node "root" [node "child" [token "token" 2], token "whitespace" 1, node "child2" []]]
def d_tree_154_tree' : Tree String := the d_tree_154_tree'?
example : d_tree_154_tree'?.isSome = true := by decide +kernel

/-! `src/tree.rs:204` -/

def d_tree_204_tree? : Option (Tree String) := lit? .default
    [node "root" [], node "root2" []]
def d_tree_204_tree : Tree String := the d_tree_204_tree?
example : d_tree_204_tree?.isSome = true := by decide +kernel
example : d_tree_204_tree.firstRef.value = some "root" := by decide +kernel

/-! `src/tree.rs:223` -/

def d_tree_223_tree? : Option (Tree String) := lit? .default
    [node "root" [], node "root2" []]
def d_tree_223_tree : Tree String := the d_tree_223_tree?
example : d_tree_223_tree?.isSome = true := by decide +kernel
example : d_tree_223_tree.lastRef.value = some "root2" := by decide +kernel

/-! `src/tree.rs:276` -/

def d_tree_276_tree? : Option (Tree String) := lit? .default
    [node "root" [node "number" [token "lit" 5], node "ident" [token "lit" 3]],
      node "root2" [token "whitespace" 5]]
def d_tree_276_tree : Tree String := the d_tree_276_tree?
example : d_tree_276_tree?.isSome = true := by decide +kernel
example : d_tree_276_tree.firstRef.last.value = some "ident" := by decide +kernel
example : (d_tree_276_tree.getRef (d_tree_276_tree.firstRef.last.id)).value =
    some "ident" := by
  decide +kernel

/-! `src/tree.rs:308` -/

def d_tree_308_tree? : Option (Tree String) := lit? .default
    [node "root" [node "number" [token "lit" 5], node "ident" [token "lit" 3]],
      node "root2" [token "whitespace" 5]]
def d_tree_308_tree : Tree String := the d_tree_308_tree?
example : d_tree_308_tree?.isSome = true := by decide +kernel
example : d_tree_308_tree.range (.bits 32) = (0, 13) := by decide +kernel

/-! `src/tree.rs:338` -/

def d_tree_338_tree? : Option (Tree String) := lit? .default
    [node "root" [node "child1" [token "token1" 3],
      node "child2" [node "nested1" [token "token1" 4], token "token4" 1],
      node "child3" [token "token5" 5]], node "root2" []]
def d_tree_338_tree : Tree String := the d_tree_338_tree?
example : d_tree_338_tree?.isSome = true := by decide +kernel
example : (d_tree_338_tree.withRange 0 0).value = some "child1" := by decide +kernel
example : (d_tree_338_tree.withRange 0 3).value = some "child1" := by decide +kernel
example : (d_tree_338_tree.withRange 3 3).value = some "nested1" := by decide +kernel
example : (d_tree_338_tree.withRange 3 7).value = some "nested1" := by decide +kernel
example : (d_tree_338_tree.withRange 7 7).value = some "child2" := by decide +kernel
example : (d_tree_338_tree.withRange 7 8).value = some "child2" := by decide +kernel
example : (d_tree_338_tree.withRange 8 8).value = some "child3" := by decide +kernel
example : (d_tree_338_tree.withRange 8 13).value = some "child3" := by decide +kernel
example : (d_tree_338_tree.withRange 2 4).value = some "root" := by decide +kernel

/-! `src/tree.rs:388` -/

def d_tree_388_tree? : Option (Tree String) := built? .default
    [.checkpoint, .open "child", .token "lit" 3, .close, .closeAt 0 "root", .token "sibling" 3]
def d_tree_388_tree : Tree String := the d_tree_388_tree?
example : d_tree_388_tree?.isSome = true := by decide +kernel
example : (d_tree_388_tree.withRange 0 3).value = some "child" := by decide +kernel

/-! `src/tree.rs:418` -/

def d_tree_418_tree? : Option (Tree String) := lit? .default
    [node "root" [node "child1" [token "token1" 3],
      node "child2" [node "nested1" [token "token1" 4], token "token4" 1],
      node "child3" [token "token5" 5]], node "root2" []]
def d_tree_418_tree : Tree String := the d_tree_418_tree?
example : d_tree_418_tree?.isSome = true := by decide +kernel
example : (d_tree_418_tree.withSpan ⟨0, 0⟩).value = some "child1" := by decide +kernel
example : (d_tree_418_tree.withSpan ⟨0, 3⟩).value = some "child1" := by decide +kernel
example : (d_tree_418_tree.withSpan ⟨3, 3⟩).value = some "nested1" := by decide +kernel
example : (d_tree_418_tree.withSpan ⟨3, 7⟩).value = some "nested1" := by decide +kernel
example : (d_tree_418_tree.withSpan ⟨7, 7⟩).value = some "child2" := by decide +kernel
example : (d_tree_418_tree.withSpan ⟨7, 8⟩).value = some "child2" := by decide +kernel
example : (d_tree_418_tree.withSpan ⟨8, 8⟩).value = some "child3" := by decide +kernel
example : (d_tree_418_tree.withSpan ⟨8, 13⟩).value = some "child3" := by decide +kernel
example : (d_tree_418_tree.withSpan ⟨2, 4⟩).value = some "root" := by decide +kernel

/-! `src/tree.rs:470` -/

def d_tree_470_tree? : Option (Tree String) := built? .default
    [.checkpoint, .open "child1", .token "lit" 3, .close, .open "child2", .token "lit" 2, .close,
      .closeAt 0 "root"]
def d_tree_470_tree : Tree String := the d_tree_470_tree?
example : d_tree_470_tree?.isSome = true := by decide +kernel
example : (d_tree_470_tree.withSpan ⟨0, 0⟩).value = some "child1" := by decide +kernel
example : (d_tree_470_tree.withSpan ⟨0, 3⟩).value = some "child1" := by decide +kernel
example : (d_tree_470_tree.withSpan ⟨3, 5⟩).value = some "child2" := by decide +kernel
example : (d_tree_470_tree.withSpan ⟨4, 5⟩).value = some "child2" := by decide +kernel
example : (d_tree_470_tree.withSpan ⟨3, 4⟩).value = some "child2" := by decide +kernel
example : (d_tree_470_tree.withSpan ⟨3, 3⟩).value = some "child2" := by decide +kernel
example : (d_tree_470_tree.withSpan ⟨2, 5⟩).value = some "root" := by decide +kernel

/-! `src/edit.rs:31` -/

def d_edit_31_tree? : Option (Tree String) := lit? .default
    [node "root" [node "child" [token "lit" 1, token "lit" 2], token "whitespace" 3]]
def d_edit_31_tree : Tree String := the d_edit_31_tree?
example : d_edit_31_tree?.isSome = true := by decide +kernel
example : (d_edit_31_tree.removing [d_edit_31_tree.firstRef.first]).bind (fun t =>
    (lit? .default [node "root" [token "whitespace" 3]]).bind t.eq) = some true := by
  decide +kernel
example : (d_edit_31_tree.removing [d_edit_31_tree.firstRef.first.first]).bind (fun t =>
    (lit? .default [node "root" [node "child" [token "lit" 2], token "whitespace" 3]]).bind t.eq) =
    some true := by
  decide +kernel

/-! `src/edit.rs:108` -/

def d_edit_108_tree? : Option (Tree String) := lit? .default
    [node "root" [node "child" [token "lit" 1, token "lit" 2], token "whitespace" 3]]
def d_edit_108_tree : Tree String := the d_edit_108_tree?
example : d_edit_108_tree?.isSome = true := by decide +kernel
example : (d_edit_108_tree.removing [d_edit_108_tree.firstRef.first]).bind (fun t =>
    (lit? .default [node "root" [token "whitespace" 3]]).bind t.eq) = some true := by
  decide +kernel

/-! `src/edit.rs:150` -/

def d_edit_150_tree? : Option (Tree String) := lit? .default
    [node "root" [node "child" [token "lit" 1, token "lit" 2], token "whitespace" 3]]
def d_edit_150_tree : Tree String := the d_edit_150_tree?
example : d_edit_150_tree?.isSome = true := by decide +kernel
example : (d_edit_150_tree.removing [d_edit_150_tree.firstRef.first]).bind (fun t =>
    (lit? .default [node "root" [token "whitespace" 3]]).bind t.eq) = some true := by
  decide +kernel

/-! `src/macros.rs:5` -/

def d_macros_5_tree? : Option (Tree String) := built? .default
    [.open "Root", .open "Number", .token "Lit" 1, .close, .token "Whitespace" 3, .open "Number",
      .token "Lit" 2, .tokenEmpty "Lit", .close, .close]
def d_macros_5_tree : Tree String := the d_macros_5_tree?
example : d_macros_5_tree?.isSome = true := by decide +kernel
def d_macros_5_expected? : Option (Tree String) := lit? .default
    [node "Root" [node "Number" [token "Lit" 1], token "Whitespace" 3,
      node "Number" [token "Lit" 2, empty "Lit"]]]
def d_macros_5_expected : Tree String := the d_macros_5_expected?
example : d_macros_5_expected?.isSome = true := by decide +kernel
example : d_macros_5_expected.eq d_macros_5_tree = some true := by decide +kernel

/-! `src/macros.rs:117` -/

def d_macros_117_tree? : Option (Tree String) := lit? ⟨.empty, 64, false⟩
    [node "root" [node "child" [empty "token"], empty "child2"]]
def d_macros_117_tree : Tree String := the d_macros_117_tree?
example : d_macros_117_tree?.isSome = true := by decide +kernel
def d_macros_117_expected? : Option (Tree String) := lit? ⟨.empty, 64, false⟩
    [node "root" [node "child" [token "token" 0], empty "child2"]]
def d_macros_117_expected : Tree String := the d_macros_117_expected?
example : d_macros_117_expected?.isSome = true := by decide +kernel
example : d_macros_117_tree.eq d_macros_117_expected = some true := by decide +kernel

/-! `src/lib.rs:86` -/

def d_lib_86_tree? : Option (Tree String) := built? .default
    [.open "Number", .token "Lit" 1, .token "Lit" 3, .open "Nested", .token "Lit" 1, .close,
      .close]
def d_lib_86_tree : Tree String := the d_lib_86_tree?
example : d_lib_86_tree?.isSome = true := by decide +kernel
def d_lib_86_expected? : Option (Tree String) := lit? .default
    [node "Number" [token "Lit" 1, token "Lit" 3, node "Nested" [token "Lit" 1]]]
def d_lib_86_expected : Tree String := the d_lib_86_expected?
example : d_lib_86_expected?.isSome = true := by decide +kernel
example : d_lib_86_tree.eq d_lib_86_expected = some true := by decide +kernel
example : d_lib_86_tree.firstRef.span = some ⟨0, 5⟩ := by decide +kernel

/-! `src/lib.rs:143` -/

def d_lib_143_tree? : Option (Tree String) := built? ⟨.bits 64, 16, true⟩
    [.open "root", .open "child", .token "token" 100, .close, .open "child2", .close, .close]
def d_lib_143_tree : Tree String := the d_lib_143_tree?
example : d_lib_143_tree?.isSome = true := by decide +kernel
def d_lib_143_expected? : Option (Tree String) := lit? ⟨.bits 64, 32, true⟩
    [node "root" [node "child" [token "token" 100], node "child2" []]]
def d_lib_143_expected : Tree String := the d_lib_143_expected?
example : d_lib_143_expected?.isSome = true := by decide +kernel
example : d_lib_143_tree.eq d_lib_143_expected = some true := by decide +kernel
example : d_lib_143_tree.getSpan = ⟨0, 100⟩ := by decide +kernel

/-! `src/lib.rs:187` -/

def d_lib_187_tree? : Option (Tree String) := built? ⟨.empty, 64, false⟩
    [.open "root", .open "child", .token "token" 0, .close, .open "child2", .close, .close]
def d_lib_187_tree : Tree String := the d_lib_187_tree?
example : d_lib_187_tree?.isSome = true := by decide +kernel
def d_lib_187_expected? : Option (Tree String) := lit? ⟨.empty, 64, false⟩
    [node "root" [node "child" [empty "token"], node "child2" []]]
def d_lib_187_expected : Tree String := the d_lib_187_expected?
example : d_lib_187_expected?.isSome = true := by decide +kernel
example : d_lib_187_tree.eq d_lib_187_expected = some true := by decide +kernel
example : d_lib_187_tree.getSpan.isEmpty = true := by decide +kernel

/-! `src/error.rs:13` -/

example : callErr? .default
    [.open "root", .close] (.close) =
    some .closeError := by decide +kernel

/-! `src/error.rs:31` -/

example : ((after? .default
    [.open "number", .token "lit" 3, .close, .open "number"]).map fun s =>
    err? s.b.build) = some (some .buildError) := by decide +kernel

/-! `src/error.rs:52` -/

example : callErr? .default
    [.checkpoint, .open "child", .token "token" 3] (.closeAt 0 "operation") =
    some .closeAtError := by decide +kernel

/-! `src/error.rs:77` -/
example : callErr? ⟨.bits 32, 8, true⟩ ((List.range 255).map fun d => .token (toString d) 1)
    (.token "255" 1) = some .overflow := by decide +kernel

/-! `src/error.rs:104` -/
example : ((World.init.run [.new .default, .new .default, .call 1 (.open "child"), .call 1 .close,
      .call 1 .checkpoint, .call 0 (.closeAt 0 "operation")]).2.getLast?.map fun r =>
    r.bind err?) = some (some (.missingNode 0)) := by decide +kernel

/-! `src/node/ancestors.rs:13` -/

def d_ancestors_13_tree? : Option (Tree String) := lit? .default
    [node "root" [node "child1" [], node "child3" []]]
def d_ancestors_13_tree : Tree String := the d_ancestors_13_tree?
example : d_ancestors_13_tree?.isSome = true := by decide +kernel
example : d_ancestors_13_tree.firstRef.first.first.ancestors.values = some [] := by decide +kernel

/-! `src/node/ancestors.rs:30` -/

def d_ancestors_30_tree? : Option (Tree String) := lit? .default
    [node "root" [node "child1" [node "child2" []], node "child3" []]]
def d_ancestors_30_tree : Tree String := the d_ancestors_30_tree?
example : d_ancestors_30_tree?.isSome = true := by decide +kernel
example : d_ancestors_30_tree.firstRef.first.first.value = some "child2" := by decide +kernel
example : d_ancestors_30_tree.firstRef.first.first.ancestors.values =
    some [some "child2", some "child1", some "root"] := by
  decide +kernel

/-! `src/node/ancestors.rs:83` -/

def d_ancestors_83_tree? : Option (Tree String) := lit? .default
    [node "root" [node "child" [token "lit" 3]]]
def d_ancestors_83_tree : Tree String := the d_ancestors_83_tree?
example : d_ancestors_83_tree?.isSome = true := by decide +kernel
example : d_ancestors_83_tree.firstRef.first.first.value = some "lit" := by decide +kernel
example : d_ancestors_83_tree.firstRef.first.first.ancestors.skipTokens.values = some [some "child", some "root"] := by
  decide +kernel

/-! `src/node/children.rs:15` -/

def d_children_15_tree? : Option (Tree String) := lit? .default
    [node "root" [node "child1" [node "child2" [empty "token1"]], node "child3" []]]
def d_children_15_tree : Tree String := the d_children_15_tree?
example : d_children_15_tree?.isSome = true := by decide +kernel
example : d_children_15_tree.firstRef.last.children.values = some [] := by decide +kernel

/-! `src/node/children.rs:36` -/

def d_children_36_tree? : Option (Tree String) := lit? .default
    [node "root" [node "child1" [node "child2" []], node "child3" []],
      node "root2" [node "child4" []]]
def d_children_36_tree : Tree String := the d_children_36_tree?
example : d_children_36_tree?.isSome = true := by decide +kernel
example : d_children_36_tree.childrenIter.values =
    some [some "root", some "root2"] := by
  decide +kernel
example : d_children_36_tree.childrenRev.values =
    some [some "root2", some "root"] := by
  decide +kernel
example : d_children_36_tree.firstRef.children.values =
    some [some "child1", some "child3"] := by
  decide +kernel
example : d_children_36_tree.firstRef.childrenRev.values =
    some [some "child3", some "child1"] := by
  decide +kernel

/-! `src/node/children.rs:111` -/

def d_children_111_tree? : Option (Tree String) := lit? .default
    [token "token1" 1, node "child1" [empty "token2"], token "token3" 1,
      node "child2" [empty "token4"], token "token5" 1, node "child3" [empty "token6"],
      token "token7" 1]
def d_children_111_tree : Tree String := the d_children_111_tree?
example : d_children_111_tree?.isSome = true := by decide +kernel
example : d_children_111_tree.childrenIter.skipTokens.values = some [some "child1", some "child2", some "child3"] := by
  decide +kernel

/-! `src/node/node_impl.rs:49` -/

def d_node_impl_49_tree? : Option (Tree String) := lit? .default
    [node "root" [token "number" 5, token "ident" 3]]
def d_node_impl_49_tree : Tree String := the d_node_impl_49_tree?
example : d_node_impl_49_tree?.isSome = true := by decide +kernel
example : d_node_impl_49_tree.firstRef.value = some "root" := by decide +kernel
example : d_node_impl_49_tree.firstRef.first.value = some "number" := by decide +kernel
example : d_node_impl_49_tree.firstRef.first.next.value = some "ident" := by decide +kernel

/-! `src/node/node_impl.rs:76` -/

def d_node_impl_76_tree? : Option (Tree String) := lit? .default
    [node "root" [token "number" 5, token "ident" 3]]
def d_node_impl_76_tree : Tree String := the d_node_impl_76_tree?
example : d_node_impl_76_tree?.isSome = true := by decide +kernel
example : d_node_impl_76_tree.firstRef.value = some "root" := by decide +kernel
example : d_node_impl_76_tree.firstRef.first.value = some "number" := by decide +kernel
example : d_node_impl_76_tree.firstRef.first.next.value = some "ident" := by decide +kernel
example : d_node_impl_76_tree.firstRef.first.id = some 1 := by decide +kernel
example : (d_node_impl_76_tree.replace 1 "other").2 = some "number" := by decide +kernel
example : (d_node_impl_76_tree.replace 1 "other").1.firstRef.first.value = some "other" := by
  decide +kernel
example : (d_node_impl_76_tree.replace 1 "other").1.firstRef.first.next.value = some "ident" := by
  decide +kernel

/-! `src/node/node_impl.rs:106` -/

def d_node_impl_106_tree? : Option (Tree String) := lit? .default
    [node "root" [token "number" 5, token "ident" 3]]
def d_node_impl_106_tree : Tree String := the d_node_impl_106_tree?
example : d_node_impl_106_tree?.isSome = true := by decide +kernel
example : d_node_impl_106_tree.firstRef.hasChildren = some true := by decide +kernel
example : forLoop (Children.next d_node_impl_106_tree.nodes) (hasChildren d_node_impl_106_tree.nodes)
    4 (nodeChildren d_node_impl_106_tree.nodes 0) = some [false, false] := by decide +kernel

/-! `src/node/node_impl.rs:129` -/

def d_node_impl_129_tree? : Option (Tree String) := lit? .default
    [node "root" [node "number" [token "lit" 5], node "ident" [token "lit" 3]],
      node "root2" [token "whitespace" 5]]
def d_node_impl_129_tree : Tree String := the d_node_impl_129_tree?
example : d_node_impl_129_tree?.isSome = true := by decide +kernel
example : d_node_impl_129_tree.firstRef.span = some ⟨0, 8⟩ := by decide +kernel
example : d_node_impl_129_tree.firstRef.next.span = some ⟨8, 13⟩ := by decide +kernel

/-! `src/node/node_impl.rs:163` -/

def d_node_impl_163_tree? : Option (Tree String) := lit? .default
    [empty "root", node "root2" [token "token2" 5]]
def d_node_impl_163_tree : Tree String := the d_node_impl_163_tree?
example : d_node_impl_163_tree?.isSome = true := by decide +kernel
example : d_node_impl_163_tree.firstRef.isEmpty = some true := by decide +kernel
example : d_node_impl_163_tree.firstRef.next.isEmpty = some false := by decide +kernel

/-! `src/node/node_impl.rs:245` -/

def d_node_impl_245_tree? : Option (Tree String) := lit? .default
    [node "root" [node "number" [token "lit" 5], node "ident" [token "lit" 3]],
      node "root2" [token "whitespace" 5]]
def d_node_impl_245_tree : Tree String := the d_node_impl_245_tree?
example : d_node_impl_245_tree?.isSome = true := by decide +kernel
example : d_node_impl_245_tree.firstRef.value = some "root" := by decide +kernel
example : d_node_impl_245_tree.firstRef.parent.id = none := by decide +kernel
example : d_node_impl_245_tree.firstRef.first.value = some "number" := by decide +kernel
example : d_node_impl_245_tree.firstRef.first.parent.value = some "root" := by decide +kernel

/-! `src/node/node_impl.rs:280` -/

def d_node_impl_280_tree? : Option (Tree String) := lit? .default
    [node "root" [node "number" [token "lit" 5], node "ident" [token "lit" 3]]]
def d_node_impl_280_tree : Tree String := the d_node_impl_280_tree?
example : d_node_impl_280_tree?.isSome = true := by decide +kernel
example : d_node_impl_280_tree.firstRef.first.value = some "number" := by decide +kernel
example : d_node_impl_280_tree.firstRef.first.prev.id = none := by decide +kernel
example : d_node_impl_280_tree.firstRef.first.next.value = some "ident" := by decide +kernel
example : d_node_impl_280_tree.firstRef.first.next.prev.value = some "number" := by decide +kernel

/-! `src/node/node_impl.rs:312` -/

def d_node_impl_312_tree? : Option (Tree String) := lit? .default
    [node "root" [node "number" [token "lit" 5], node "ident" [token "lit" 3]]]
def d_node_impl_312_tree : Tree String := the d_node_impl_312_tree?
example : d_node_impl_312_tree?.isSome = true := by decide +kernel
example : d_node_impl_312_tree.firstRef.value = some "root" := by decide +kernel
example : d_node_impl_312_tree.firstRef.first.value = some "number" := by decide +kernel
example : d_node_impl_312_tree.firstRef.first.next.value = some "ident" := by decide +kernel

/-! `src/node/node_impl.rs:343` -/

def d_node_impl_343_tree? : Option (Tree String) := lit? .default
    [node "root" [node "number" [token "lit" 5], node "ident" [token "lit" 3]],
      node "root2" [token "whitespace" 5]]
def d_node_impl_343_tree : Tree String := the d_node_impl_343_tree?
example : d_node_impl_343_tree?.isSome = true := by decide +kernel
example : d_node_impl_343_tree.firstRef.value = some "root" := by decide +kernel
example : d_node_impl_343_tree.firstRef.first.value = some "number" := by decide +kernel

/-! `src/node/node_impl.rs:374` -/

def d_node_impl_374_tree? : Option (Tree String) := lit? .default
    [node "root" [node "number" [token "lit" 5], node "ident" [token "lit" 3]],
      node "root2" [token "whitespace" 5]]
def d_node_impl_374_tree : Tree String := the d_node_impl_374_tree?
example : d_node_impl_374_tree?.isSome = true := by decide +kernel
example : d_node_impl_374_tree.lastRef.value = some "root2" := by decide +kernel
example : d_node_impl_374_tree.lastRef.last.value = some "whitespace" := by decide +kernel

/-! `src/node/node_impl.rs:410` -/

def d_node_impl_410_tree? : Option (Tree String) := lit? .default
    [node "root" [node "child1" [token "token2" 1, node "child2" [token "token1" 2]],
      node "child3" [node "child4" [token "token1" 4]]]]
def d_node_impl_410_tree : Tree String := the d_node_impl_410_tree?
example : d_node_impl_410_tree?.isSome = true := by decide +kernel
example : (d_node_impl_410_tree.withRange 3 3).value = some "child4" := by decide +kernel
example : (d_node_impl_410_tree.withRange 3 3).id.bind (fun n =>
    (got (findPreceding d_node_impl_410_tree.nodes (fun m =>
      (nodeSpan d_node_impl_410_tree.nodes m).any (fun sp => sp.stop == 3) &&
        hasChildren d_node_impl_410_tree.nodes m) n)).bind
      (nodeValue d_node_impl_410_tree.nodes)) = some "child2" := by decide +kernel

/-! `src/node/node_impl.rs:485` -/

def d_node_impl_485_tree? : Option (Tree String) := built? .default
    [.open "root", .open "child", .close, .open "child2", .close, .close]
def d_node_impl_485_tree : Tree String := the d_node_impl_485_tree?
example : d_node_impl_485_tree?.isSome = true := by decide +kernel
example : d_node_impl_485_tree.firstRef.id = some 0 := by decide +kernel
example : d_node_impl_485_tree.firstRef.first.id = some 1 := by decide +kernel
example : d_node_impl_485_tree.firstRef.first.next.id = some 2 := by decide +kernel

/-! `src/node/node_impl.rs:530` -/

def d_node_impl_530_tree? : Option (Tree String) := lit? .default
    [node "root" [node "number" [token "lit" 5], node "ident" [token "lit" 3]],
      node "root2" [token "whitespace" 5]]
def d_node_impl_530_tree : Tree String := the d_node_impl_530_tree?
example : d_node_impl_530_tree?.isSome = true := by decide +kernel
example : d_node_impl_530_tree.firstRef.range = some (0, 8) := by decide +kernel
example : d_node_impl_530_tree.firstRef.next.range = some (8, 13) := by decide +kernel

/-! `src/node/siblings.rs:15` -/

def d_siblings_15_tree? : Option (Tree String) := lit? .default
    [node "root" [node "child1" [node "child2" [empty "token1"]], node "child3" [empty "token2"]]]
def d_siblings_15_tree : Tree String := the d_siblings_15_tree?
example : d_siblings_15_tree?.isSome = true := by decide +kernel
example : d_siblings_15_tree.firstRef.next.siblings.values = some [] := by decide +kernel

/-! `src/node/siblings.rs:38` -/

def d_siblings_38_tree? : Option (Tree String) := lit? .default
    [node "root" [node "child1" [node "child2" [empty "token1"]],
      node "child3" [empty "token2"]], node "root2" [node "child4" [empty "token3"]]]
def d_siblings_38_tree : Tree String := the d_siblings_38_tree?
example : d_siblings_38_tree?.isSome = true := by decide +kernel
example : d_siblings_38_tree.firstRef.siblings.values =
    some [some "root", some "root2"] := by
  decide +kernel

/-! `src/node/siblings.rs:105` -/

def d_siblings_105_tree? : Option (Tree String) := lit? .default
    [token "token1" 1, node "child1" [empty "token2"], token "token3" 1,
      node "child2" [empty "token4"], token "token5" 1, node "child3" [empty "token6"],
      token "token7" 1]
def d_siblings_105_tree : Tree String := the d_siblings_105_tree?
example : d_siblings_105_tree?.isSome = true := by decide +kernel
example : d_siblings_105_tree.firstRef.siblings.skipTokens.values = some [some "child1", some "child2", some "child3"] := by
  decide +kernel

/-! `src/node/skip_tokens.rs:17` -/

def d_skip_tokens_17_tree? : Option (Tree String) := lit? .default
    [token "token1" 1, node "child1" [empty "token2"], token "token3" 1,
      node "child2" [empty "toke4"], token "token5" 1, node "child3" [empty "token6"],
      token "token7" 1]
def d_skip_tokens_17_tree : Tree String := the d_skip_tokens_17_tree?
example : d_skip_tokens_17_tree?.isSome = true := by decide +kernel
example : d_skip_tokens_17_tree.childrenIter.skipTokens.values =
    some [some "child1", some "child2", some "child3"] := by
  decide +kernel

/-! `src/node/skip_tokens.rs:45` -/

def d_skip_tokens_45_tree? : Option (Tree String) := lit? .default
    [node "child1" [node "child2" [empty "token1"], token "token2" 1,
      node "child3" [empty "token3"]], node "child4" [token "token4" 1]]
def d_skip_tokens_45_tree : Tree String := the d_skip_tokens_45_tree?
example : d_skip_tokens_45_tree?.isSome = true := by decide +kernel
example : d_skip_tokens_45_tree.walking.skipTokens.values =
    some [some "child1", some "child2", some "child3", some "child4"] := by
  decide +kernel

/-! `src/node/walk.rs:15` -/

def d_walk_15_tree? : Option (Tree String) := lit? .default
    [node "root" [node "c1" [node "c2" [], node "c3" [], node "c4" []], node "c5" [],
      node "c6" [node "c7" []]]]
def d_walk_15_tree : Tree String := the d_walk_15_tree?
example : d_walk_15_tree?.isSome = true := by decide +kernel
example : d_walk_15_tree.walking.values =
    some [some "root", some "c1", some "c2", some "c3", some "c4", some "c5", some "c6", some "c7"] := by
  decide +kernel
example : d_walk_15_tree.firstRef.walk.values =
    some [some "root", some "c1", some "c2", some "c3", some "c4", some "c5", some "c6", some "c7"] := by
  decide +kernel
example : d_walk_15_tree.firstRef.first.walk.values =
    some [some "c1", some "c2", some "c3", some "c4", some "c5", some "c6", some "c7"] := by
  decide +kernel
example : d_walk_15_tree.firstRef.first.walkFrom.values =
    some [some "c5", some "c6", some "c7"] := by
  decide +kernel
example : d_walk_15_tree.firstRef.first.last.walk.values =
    some [some "c4", some "c5", some "c6", some "c7"] := by
  decide +kernel
example : d_walk_15_tree.firstRef.first.last.walkFrom.values =
    some [some "c5", some "c6", some "c7"] := by
  decide +kernel
example : d_walk_15_tree.firstRef.first.next.walk.values =
    some [some "c5", some "c6", some "c7"] := by
  decide +kernel
example : d_walk_15_tree.firstRef.first.next.walkFrom.values =
    some [some "c6", some "c7"] := by
  decide +kernel

/-! `src/node/walk.rs:114` -/

def d_walk_114_tree? : Option (Tree String) := lit? .default
    [node "n1" [node "n3" [node "n4" [], node "n5" []]], node "n6" [empty "n7"]]
def d_walk_114_tree : Tree String := the d_walk_114_tree?
example : d_walk_114_tree?.isSome = true := by decide +kernel
example : d_walk_114_tree.walking.values =
    some [some "n1", some "n3", some "n4", some "n5", some "n6", some "n7"] := by
  decide +kernel
example : d_walk_114_tree.firstRef.walk.values =
    some [some "n1", some "n3", some "n4", some "n5", some "n6", some "n7"] := by
  decide +kernel
example : d_walk_114_tree.firstRef.walk.inside.values =
    some [some "n1", some "n3", some "n4", some "n5"] := by
  decide +kernel
example : d_walk_114_tree.firstRef.walkFrom.inside.values = some [] := by decide +kernel

/-! `src/node/walk.rs:154` -/

def d_walk_154_tree? : Option (Tree String) := lit? .default
    [node "root" [node "c1" [node "c2" [], node "c3" []]]]
def d_walk_154_tree : Tree String := the d_walk_154_tree?
example : d_walk_154_tree?.isSome = true := by decide +kernel
example : d_walk_154_tree.walking.withDepths =
    some [(0, some "root"), (1, some "c1"), (2, some "c2"), (2, some "c3")] := by decide +kernel

/-! `src/node/walk.rs:191` -/

def d_walk_191_tree? : Option (Tree String) := lit? .default
    [node "root" [node "c1" [node "c2" [], node "c3" []]]]
def d_walk_191_tree : Tree String := the d_walk_191_tree?
example : d_walk_191_tree?.isSome = true := by decide +kernel
example : d_walk_191_tree.walking.withDepths =
    some [(0, some "root"), (1, some "c1"), (2, some "c2"), (2, some "c3")] := by decide +kernel

/-! `src/node/walk.rs:282` -/

def d_walk_282_tree? : Option (Tree String) := lit? .default
    [node "root" [node "c1" [node "c2" [], node "c3" [], node "c4" []], node "c5" [],
      node "c6" []]]
def d_walk_282_tree : Tree String := the d_walk_282_tree?
example : d_walk_282_tree?.isSome = true := by decide +kernel
example : d_walk_282_tree.walking.withDepths =
    some [(0, some "root"), (1, some "c1"), (2, some "c2"), (2, some "c3"), (2, some "c4"), (1, some "c5"), (1, some "c6")] := by
  decide +kernel
example : d_walk_282_tree.firstRef.walk.withDepths =
    some [(0, some "root"), (1, some "c1"), (2, some "c2"), (2, some "c3"), (2, some "c4"), (1, some "c5"), (1, some "c6")] := by
  decide +kernel

/-! `src/node/walk.rs:390` -/

def d_walk_390_tree? : Option (Tree String) := lit? .default
    [node "n1" [node "n3" [node "n4" [], node "n5" []]], node "n6" [empty "n7"]]
def d_walk_390_tree : Tree String := the d_walk_390_tree?
example : d_walk_390_tree?.isSome = true := by decide +kernel
example : d_walk_390_tree.walking.values =
    some [some "n1", some "n3", some "n4", some "n5", some "n6", some "n7"] := by
  decide +kernel
example : d_walk_390_tree.firstRef.walk.values =
    some [some "n1", some "n3", some "n4", some "n5", some "n6", some "n7"] := by
  decide +kernel
example : d_walk_390_tree.firstRef.walk.inside.values =
    some [some "n1", some "n3", some "n4", some "n5"] := by
  decide +kernel
example : d_walk_390_tree.firstRef.walkFrom.inside.values = some [] := by decide +kernel

/-! `src/node/walk_events.rs:30` -/

def d_walk_events_30_tree? : Option (Tree String) := lit? .default
    [node "root" [node "c1" [node "c2" [], node "c3" [], node "c4" []], node "c5" [],
      node "c6" []]]
def d_walk_events_30_tree : Tree String := the d_walk_events_30_tree?
example : d_walk_events_30_tree?.isSome = true := by decide +kernel
example : d_walk_events_30_tree.walking.events =
    some [(.next, some "root"), (.down, some "c1"), (.down, some "c2"), (.next, some "c3"), (.next, some "c4"), (.up, some "c1"), (.next, some "c5"), (.next, some "c6"), (.up, some "root")] := by
  decide +kernel
example : d_walk_events_30_tree.firstRef.walk.events =
    some [(.next, some "root"), (.down, some "c1"), (.down, some "c2"), (.next, some "c3"), (.next, some "c4"), (.up, some "c1"), (.next, some "c5"), (.next, some "c6"), (.up, some "root")] := by
  decide +kernel
example : d_walk_events_30_tree.firstRef.first.walk.events =
    some [(.next, some "c1"), (.down, some "c2"), (.next, some "c3"), (.next, some "c4"), (.up, some "c1"), (.next, some "c5"), (.next, some "c6"), (.up, some "root")] := by
  decide +kernel

/-! `src/node/walk_events.rs:98` -/

def d_walk_events_98_tree? : Option (Tree String) := lit? .default
    [node "root" [node "c1" [node "c2" [], node "c3" []]]]
def d_walk_events_98_tree : Tree String := the d_walk_events_98_tree?
example : d_walk_events_98_tree?.isSome = true := by decide +kernel
/-- The loop of the example. -/
def tally : List (Event × Option String) → Int × List (Int × Option String)
  | l => l.foldl (fun s x => match x.1 with
      | .up => (s.1 - 1, s.2)
      | .down => (s.1 + 1, s.2 ++ [(s.1 + 1, x.2)])
      | .next => (s.1, s.2 ++ [(s.1, x.2)])) (0, [])
example : d_walk_events_98_tree.walking.events.map tally =
    some (0, [(0, some "root"), (1, some "c1"), (2, some "c2"), (2, some "c3")]) := by
  decide +kernel

/-! `src/span.rs:31`, `:48`, `:65`, `:93`, `:112`, `:138`, `:154` -/

example : (Span.new 4 8).start = 4 ∧ (Span.new 4 8).stop = 8 := by decide
example : Span.point 4 = Span.new 4 4 := by decide
example : ((Span.new 4 8).join (Span.new 5 9)).start = 4 := by decide
example : ((Span.new 4 8).join (Span.new 5 9)).stop = 9 := by decide
example : (Span.new 4 8).join (Span.new 5 9) = (Span.new 5 9).join (Span.new 4 8) := by decide
example : (Span.new 0 0).isEmpty = true := by decide
example : (Span.new 0 10).isEmpty = false := by decide
example : (Span.new 2 2).contains 2 = false := by decide
example : (Span.new 2 3).contains 2 = true := by decide
example : (Span.new 2 3).contains 3 = false := by decide
example : (Span.new 4 8).range (.bits 32) = (4, 8) := by decide
example : (Span.new 0 0).len (.bits 32) = 0 := by decide
example : (Span.new 0 10).len (.bits 32) = 10 := by decide

/-! `src/pointer.rs:21`, `:36`, `:59` -/

example : (RawPtr.new 32 0).map (RawPtr.get 64) = some 0 := by decide
example : (RawPtr.new 32 42).map (RawPtr.get 64) = some 42 := by decide
def d_pointer_59 : Tree String := the (lit? .default [empty "root1", empty "root2"])
example : d_pointer_59.firstRef.id ≠ d_pointer_59.lastRef.id := by decide +kernel
example : d_pointer_59.firstRef.id.isSome ∧ d_pointer_59.lastRef.id.isSome := by decide +kernel

/-! `src/builder.rs:556`, with both builders. -/

def d_builder_556_world : World String :=
  (World.init.run [.new .default, .new .default, .call 1 .checkpoint, .call 0 (.open "child"),
    .call 0 .close, .call 1 (.open "child"), .call 1 .close, .call 0 (.closeAt 0 "root")]).1
example : ((World.init.run [.new .default, .new .default, .call 1 .checkpoint,
    .call 0 (.open "child"), .call 0 .close, .call 1 (.open "child"), .call 1 .close,
    .call 0 (.closeAt 0 "root")]).2.all fun r => r.all fun r => (err? r).isNone) = true := by
  decide +kernel
example : (d_builder_556_world.builders[0]?.bind fun x => ok? x.2.build).bind (fun t =>
    t.eq d_builder_556_unexpected) = some true := by decide +kernel

/-! `src/print.rs:20`, `:77` (and the listings at `:54` and `:113`) -/

def d_print_20_tree : Tree String :=
  the (lit? .default [node "NUMBER" [token "NUMBER" 3], token "WHITESPACE" 1,
    node "OPERATOR" [token "PLUS" 1], token "WHITESPACE" 1, node "NUMBER" [token "NUMBER" 2]])
/-- `{:?}` of a string without characters that need escapes. -/
def quoted (s : String) : String := "\"" ++ s ++ "\""
example : (d_print_20_tree.print toString id quoted).map String.join =
    some ("NUMBER@0..3\n  NUMBER@0..3 +\nWHITESPACE@3..4 +\nOPERATOR@4..5\n  PLUS@4..5 +\n" ++
      "WHITESPACE@5..6 +\nNUMBER@6..8\n  NUMBER@6..8 +\n") := by decide +kernel
example : (d_print_20_tree.printWithSource (.bits 32) toString id quoted (fun r =>
      (Text.get "128 + 64".toList r).map String.ofList)).map String.join =
    some ("NUMBER@0..3\n  NUMBER@0..3 \"128\"\nWHITESPACE@3..4 \" \"\nOPERATOR@4..5\n" ++
      "  PLUS@4..5 \"+\"\nWHITESPACE@5..6 \" \"\nNUMBER@6..8\n  NUMBER@6..8 \"64\"\n") := by
  decide +kernel

/-! `src/lib.rs:41-61` — the listing printed by the calculator example, and `:272-279` — what the
example with synthetic strings prints. -/

/-- `#[derive(Debug)]` of `examples/calculator/grammar.rs`. -/
def calcName : Calc.Syn → String
  | .operation => "Operation" | .group => "Group" | .number => "Number"
  | .plus => "Plus" | .minus => "Minus" | .div => "Div" | .mul => "Mul" | .pow => "Pow"
  | .operator => "Operator" | .whitespace => "Whitespace" | .openParen => "OpenParen"
  | .closeParen => "CloseParen" | .error => "Error" | .eof => "Eof"

example : ((ok? (Calc.parse "256 / 2 + 64 * 2".toList)).bind fun t =>
    (t.printWithSource (.bits 32) toString calcName quoted (fun r =>
      (Text.get "256 / 2 + 64 * 2".toList r).map String.ofList)).map String.join) =
    some ("Operation@0..16\n  Number@0..3\n    Number@0..3 \"256\"\n  Whitespace@3..4 \" \"\n" ++
      "  Operator@4..5\n    Div@4..5 \"/\"\n  Whitespace@5..6 \" \"\n  Number@6..7\n" ++
      "    Number@6..7 \"2\"\n  Whitespace@7..8 \" \"\n  Operator@8..9\n    Plus@8..9 \"+\"\n" ++
      "  Whitespace@9..10 \" \"\n  Operation@10..16\n    Number@10..12\n" ++
      "      Number@10..12 \"64\"\n    Whitespace@12..13 \" \"\n    Operator@13..14\n" ++
      "      Mul@13..14 \"*\"\n    Whitespace@14..15 \" \"\n    Number@15..16\n" ++
      "      Number@15..16 \"2\"\n") := by decide +kernel

/-- `#[derive(Debug)]` of the example (`examples/synthetic_strings.rs:11-20`); the listing in the
documentation calls the variant `Literal` by the name `Lit`. -/
def synthName : Synth.Syn → String
  | .synthetic n => "Synthetic(" ++ toString n ++ ")"
  | .literal => "Lit" | .whitespace => "Whitespace" | .error => "Error"

def helloStorage : Synth.Storage := Synth.Storage.empty.insert "world".toList "Earth".toList

example : (match Synth.tokenLoop .default helloStorage 13 (Synth.Lexer.new "Hello $world".toList)
      Sys.init with
    | .error _ => none
    | .ok s => (ok? s.b.build).bind fun t =>
      (t.printWithSource (.bits 32) toString synthName quoted (fun r =>
        (Text.get "Hello $world".toList r).map String.ofList)).map String.join) =
    some "Lit@0..5 \"Hello\"\nWhitespace@5..6 \" \"\nSynthetic(0)@6..12 \"$world\"\n" := by
  decide +kernel
example : (match Synth.run helloStorage "Hello $world".toList with
    | .error _ => none
    | .ok l => some l) = some [.value 0 "Hello".toList, .value 1 "Earth".toList] := by
  decide +kernel

/-! `tests/checkpoints.rs` -/

/-- `tests/checkpoints.rs:13-49` -/
def t_balanced : Option (Tree String) := built? .default
  [.checkpoint, .open "Number", .token "Lit" 2, .close, .token "Whitespace" 3, .open "Number",
    .token "Lit" 2, .token "Lit" 2, .close, .closeAt 0 "Root"]
example : (lit? .default [node "Root" [node "Number" [token "Lit" 2], token "Whitespace" 3,
      node "Number" [token "Lit" 2, token "Lit" 2]]]).bind (fun e => e.eq (the t_balanced)) =
    some true := by decide +kernel
/-- `tests/checkpoints.rs:51-73` -/
def t_mutation : Option (Tree String) := built? .default
  [.checkpoint, .checkpoint, .token "b" 3, .closeAt 1 "operation", .closeAt 0 "operation"]
example : t_mutation.bind (fun t => (lit? .default
    [node "operation" [node "operation" [token "b" 3]]]).bind t.eq) = some true := by decide +kernel
/-- `tests/checkpoints.rs:75-99` -/
def t_nested : Option (Tree String) := built? .default
  [.checkpoint, .token "a" 3, .checkpoint, .token "b" 3, .closeAt 1 "operation",
    .closeAt 0 "operation"]
example : t_nested.bind (fun t => (lit? .default
    [node "operation" [token "a" 3, node "operation" [token "b" 3]]]).bind t.eq) = some true := by
  decide +kernel
/-- `tests/checkpoints.rs:101-125` -/
def t_nested2 : Option (Tree String) := built? .default
  [.checkpoint, .checkpoint, .token "b" 3, .closeAt 1 "operation", .token "a" 3,
    .closeAt 0 "operation"]
example : t_nested2.bind (fun t => (lit? .default
    [node "operation" [node "operation" [token "b" 3], token "a" 3]]).bind t.eq) = some true := by
  decide +kernel
/-- `tests/checkpoints.rs:127-152` -/
def t_around : Option (Tree String) := built? .default
  [.open "operation", .token "b" 3, .checkpoint, .close, .checkpoint, .token "a" 3,
    .closeAt 1 "operation"]
example : t_around.bind (fun t => (lit? .default
    [node "operation" [token "b" 3], node "operation" [token "a" 3]]).bind t.eq) = some true := by
  decide +kernel

/-! `tests/walk_trees.rs`: `n1.children().flat_map(|n| n.walk().inside())`. -/

def insideChildren (t : Tree String) (n : Nat) : Option (List (List (Option String))) :=
  (forLoop (Children.next t.nodes) id (t.nodes.length + 1) (nodeChildren t.nodes n)).bind
    fun ids => ids.mapM fun m => (Ref.mk t (some m)).walk.inside.values

/-- `tests/walk_trees.rs:1-26` -/
def t_walk1 : Tree String := the (lit? .default
  [node "n1" [empty "n2", node "n3" [empty "n4"], empty "n5"], node "n6" [empty "n7"]])
example : t_walk1.firstRef.id.bind (fun n => (insideChildren t_walk1 n).map List.flatten) =
    some [some "n2", some "n3", some "n4", some "n5"] := by decide +kernel
/-- `tests/walk_trees.rs:28-51` -/
def t_walk2 : Tree String := the (lit? .default
  [node "n1" [empty "n2", empty "n3", empty "n5"], node "n6" [empty "n7"]])
example : t_walk2.firstRef.id.bind (fun n => (insideChildren t_walk2 n).map List.flatten) =
    some [some "n2", some "n3", some "n5"] := by decide +kernel

/-! `examples/iterator.rs:5-26`, `examples/checkpoint.rs:4-34` (the latter is `src/builder.rs:701`
again, with the printed tree). -/

def t_iterator : Tree String := the (built? .default
  [.open "root1", .open "child1", .close, .open "child2", .close, .close, .open "root2", .close])
example : t_iterator.childrenIter.values = some [some "root1", some "root2"] := by decide +kernel
example : (d_builder_701_tree.print toString quoted quoted).map String.join =
    some "\"root\"@0..3\n  \"child\"@0..3\n    \"lit\"@0..3 +\n\"sibling\"@3..6 +\n" := by
  decide +kernel

end Syntree.Check
