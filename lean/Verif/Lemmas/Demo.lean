import Verif.Model.Update
/-!
Programs used in the examples.
-/
namespace Alda

/-- A small program used in the examples: two instruments, four notes. -/
def demo : List Upd :=
  [.partDecl ["piano"] "", .leaf (.note (.letter .C none) [.length 4 0] false), .leaf (.note (.letter .E none) [] false),
   .partDecl ["violin"] "v", .leaf (.note (.letter .G none) [.length 2 0] false), .chord [.leaf (.note (.letter .C none) [] false), .leaf (.rest [.length 8 0])]]

/-- Two instruments on one explicit channel, one after the other. -/
def demoShared : List Upd :=
  [.partDecl ["piano"] "", .leaf (.attr (.midiChannel 3)), .leaf (.note (.letter .C none) [.length 4 0] false),
   .partDecl ["violin"] "", .leaf (.attr (.midiChannel 3)), .leaf (.rest [.length 4 0]), .leaf (.note (.letter .E none) [] false),
   .partDecl ["midi-percussion"] "", .leaf (.note (.letter .C none) [] false)]

end Alda
