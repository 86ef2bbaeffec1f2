import Verif.Parse.Tables
/-
The items of the states of the automaton with their lookahead, computed by tools/lalr.py: annotations for the proofs, not
part of the parser.
-/
namespace Verif.Parse

/-- A production, how much of its right hand side has been seen, and the terminals that may follow it, as a bit mask. -/
structure Item where
  rule : Rule
  dot : Nat
  look : Nat

private def i0 : List Item := [⟨.accept, 0, 67108863⟩, ⟨.startProgram, 0, 64972303⟩, ⟨.startPath, 0, 67108863⟩]
private def i1 : List Item := [⟨.accept, 1, 67108863⟩]
private def i2 : List Item := [⟨.startProgram, 1, 64972303⟩, ⟨.nameWord, 0, 9720080⟩, ⟨.nameType, 0, 9720080⟩, ⟨.modulePath, 0, 9720080⟩, ⟨.nkindBasic, 0, 16⟩, ⟨.nkindPoly, 0, 16⟩, ⟨.tkindBasic, 0, 16⟩, ⟨.tkindPoly, 0, 16⟩, ⟨.kindN, 0, 16⟩, ⟨.kindT, 0, 16⟩, ⟨.exprTypeof, 0, 9720080⟩, ⟨.exprVar, 0, 9720080⟩, ⟨.exprModule, 0, 9720080⟩, ⟨.exprStructType, 0, 9720080⟩, ⟨.exprApply, 0, 9720080⟩, ⟨.exprStruct, 0, 9720080⟩, ⟨.exprAccess, 0, 9720080⟩, ⟨.exprCopy, 0, 9720080⟩, ⟨.exprUnionType, 0, 9720080⟩, ⟨.exprPackage, 0, 9720080⟩, ⟨.exprPackageNone, 0, 9720080⟩, ⟨.exprUnion, 0, 9720080⟩, ⟨.exprSelect, 0, 9720080⟩, ⟨.exprSelectDefault, 0, 9720080⟩, ⟨.exprPolyApply, 0, 9720080⟩, ⟨.exprAbstractAccess, 0, 9720080⟩, ⟨.exprCast, 0, 9720080⟩, ⟨.exprList, 0, 9720080⟩, ⟨.exprLiteral, 0, 9720080⟩, ⟨.exprBlock, 0, 9720080⟩, ⟨.blockStmt, 0, 9720080⟩, ⟨.blockFuncType, 0, 9720080⟩, ⟨.blockFunc, 0, 9720080⟩, ⟨.blockPoly, 0, 9720080⟩, ⟨.stmtExpr, 0, 64972303⟩, ⟨.stmtLet, 0, 64972303⟩, ⟨.stmtBind, 0, 64972303⟩, ⟨.stmtDefault, 0, 64972303⟩, ⟨.taggedType, 0, 1280⟩, ⟨.taggedTypesOne, 0, 1280⟩, ⟨.taggedTypesMore, 0, 1280⟩, ⟨.bindType, 0, 8389632⟩, ⟨.bindKind, 0, 8389632⟩, ⟨.bindMoreType, 0, 8389632⟩, ⟨.bindMoreKind, 0, 8389632⟩]
private def i3 : List Item := [⟨.startPath, 1, 67108863⟩, ⟨.modulePath, 0, 67108863⟩]
private def i4 : List Item := []
private def i5 : List Item := [⟨.startProgram, 2, 64972303⟩]
private def i6 : List Item := [⟨.exprApply, 1, 9720080⟩, ⟨.exprAccess, 1, 9720080⟩, ⟨.exprCopy, 1, 9720080⟩, ⟨.exprUnion, 1, 9720080⟩, ⟨.exprSelect, 1, 9720080⟩, ⟨.exprSelectDefault, 1, 9720080⟩, ⟨.exprPolyApply, 1, 9720080⟩, ⟨.exprAbstractAccess, 1, 9720080⟩, ⟨.exprCast, 1, 9720080⟩, ⟨.exprList, 1, 9720080⟩, ⟨.exprLiteral, 1, 9720080⟩, ⟨.stmtExpr, 1, 64972303⟩, ⟨.stmtDefault, 1, 64972303⟩, ⟨.taggedType, 1, 1280⟩, ⟨.bindType, 1, 8389632⟩, ⟨.nameWord, 0, 33555712⟩, ⟨.nameType, 0, 33555712⟩]
private def i7 : List Item := [⟨.stmtLet, 1, 64972303⟩, ⟨.bindMoreType, 1, 8389632⟩, ⟨.bindMoreKind, 1, 8389632⟩]
private def i8 : List Item := [⟨.stmtBind, 1, 64972303⟩, ⟨.taggedTypesMore, 1, 1280⟩]
private def i9 : List Item := [⟨.tkindBasic, 1, 16⟩, ⟨.exprTypeof, 1, 9720080⟩, ⟨.exprStruct, 1, 9720080⟩]
private def i10 : List Item := [⟨.exprVar, 1, 10254096⟩]
private def i11 : List Item := [⟨.exprModule, 1, 10254096⟩]
private def i12 : List Item := [⟨.exprStructType, 1, 10254096⟩]
private def i13 : List Item := [⟨.exprUnionType, 1, 10254096⟩]
private def i14 : List Item := [⟨.nkindBasic, 1, 16⟩, ⟨.exprPackage, 1, 9720080⟩, ⟨.exprPackageNone, 1, 9720080⟩]
private def i15 : List Item := [⟨.exprBlock, 1, 10254096⟩]
private def i16 : List Item := [⟨.bindKind, 1, 8389632⟩, ⟨.nameWord, 0, 33554432⟩, ⟨.nameType, 0, 33554432⟩]
private def i17 : List Item := [⟨.taggedTypesOne, 1, 9472⟩]
private def i18 : List Item := [⟨.nameWord, 1, 43874064⟩, ⟨.nameType, 1, 43874064⟩]
private def i19 : List Item := [⟨.modulePath, 1, 67108863⟩, ⟨.pathWord, 0, 192⟩, ⟨.pathSlash, 0, 192⟩]
private def i20 : List Item := [⟨.blockStmt, 1, 10254096⟩, ⟨.nameWord, 0, 9720080⟩, ⟨.nameType, 0, 9720080⟩, ⟨.modulePath, 0, 9720080⟩, ⟨.nkindBasic, 0, 16⟩, ⟨.nkindPoly, 0, 16⟩, ⟨.tkindBasic, 0, 16⟩, ⟨.tkindPoly, 0, 16⟩, ⟨.kindN, 0, 16⟩, ⟨.kindT, 0, 16⟩, ⟨.exprTypeof, 0, 9720080⟩, ⟨.exprVar, 0, 9720080⟩, ⟨.exprModule, 0, 9720080⟩, ⟨.exprStructType, 0, 9720080⟩, ⟨.exprApply, 0, 9720080⟩, ⟨.exprStruct, 0, 9720080⟩, ⟨.exprAccess, 0, 9720080⟩, ⟨.exprCopy, 0, 9720080⟩, ⟨.exprUnionType, 0, 9720080⟩, ⟨.exprPackage, 0, 9720080⟩, ⟨.exprPackageNone, 0, 9720080⟩, ⟨.exprUnion, 0, 9720080⟩, ⟨.exprSelect, 0, 9720080⟩, ⟨.exprSelectDefault, 0, 9720080⟩, ⟨.exprPolyApply, 0, 9720080⟩, ⟨.exprAbstractAccess, 0, 9720080⟩, ⟨.exprCast, 0, 9720080⟩, ⟨.exprList, 0, 9720080⟩, ⟨.exprLiteral, 0, 9720080⟩, ⟨.exprBlock, 0, 9720080⟩, ⟨.blockStmt, 0, 9720080⟩, ⟨.blockFuncType, 0, 9720080⟩, ⟨.blockFunc, 0, 9720080⟩, ⟨.blockPoly, 0, 9720080⟩, ⟨.stmtExpr, 0, 4194304⟩, ⟨.stmtLet, 0, 4194304⟩, ⟨.stmtBind, 0, 4194304⟩, ⟨.stmtDefault, 0, 4194304⟩, ⟨.taggedType, 0, 1280⟩, ⟨.taggedTypesOne, 0, 1280⟩, ⟨.taggedTypesMore, 0, 1280⟩, ⟨.bindType, 0, 8389632⟩, ⟨.bindKind, 0, 8389632⟩, ⟨.bindMoreType, 0, 8389632⟩, ⟨.bindMoreKind, 0, 8389632⟩]
private def i21 : List Item := [⟨.blockFuncType, 1, 10254096⟩, ⟨.blockFunc, 1, 10254096⟩, ⟨.nameWord, 0, 1340688⟩, ⟨.nameType, 0, 1340688⟩, ⟨.modulePath, 0, 1340688⟩, ⟨.exprTypeof, 0, 1340688⟩, ⟨.exprVar, 0, 1340688⟩, ⟨.exprModule, 0, 1340688⟩, ⟨.exprStructType, 0, 1340688⟩, ⟨.exprApply, 0, 1340688⟩, ⟨.exprStruct, 0, 1340688⟩, ⟨.exprAccess, 0, 1340688⟩, ⟨.exprCopy, 0, 1340688⟩, ⟨.exprUnionType, 0, 1340688⟩, ⟨.exprPackage, 0, 1340688⟩, ⟨.exprPackageNone, 0, 1340688⟩, ⟨.exprUnion, 0, 1340688⟩, ⟨.exprSelect, 0, 1340688⟩, ⟨.exprSelectDefault, 0, 1340688⟩, ⟨.exprPolyApply, 0, 1340688⟩, ⟨.exprAbstractAccess, 0, 1340688⟩, ⟨.exprCast, 0, 1340688⟩, ⟨.exprList, 0, 1340688⟩, ⟨.exprLiteral, 0, 1340688⟩, ⟨.exprBlock, 0, 1340688⟩, ⟨.blockStmt, 0, 1340688⟩, ⟨.blockFuncType, 0, 1340688⟩, ⟨.blockFunc, 0, 1340688⟩, ⟨.blockPoly, 0, 1340688⟩, ⟨.exprsOne, 0, 9216⟩, ⟨.exprsMore, 0, 9216⟩, ⟨.taggedType, 0, 9216⟩, ⟨.taggedTypesOne, 0, 9216⟩, ⟨.taggedTypesMore, 0, 9216⟩]
private def i22 : List Item := [⟨.nkindPoly, 1, 16⟩, ⟨.tkindPoly, 1, 16⟩, ⟨.blockPoly, 1, 9720080⟩, ⟨.nkindBasic, 0, 16⟩, ⟨.nkindPoly, 0, 16⟩, ⟨.tkindBasic, 0, 1552⟩, ⟨.tkindPoly, 0, 1552⟩, ⟨.kindN, 0, 16⟩, ⟨.kindT, 0, 16⟩, ⟨.tkindsOne, 0, 1536⟩, ⟨.tkindsMore, 0, 1536⟩, ⟨.taggedKindsOne, 0, 1536⟩, ⟨.taggedKindsMore, 0, 1536⟩]
private def i23 : List Item := [⟨.kindN, 1, 16⟩]
private def i24 : List Item := [⟨.kindT, 1, 16⟩]
private def i25 : List Item := [⟨.startPath, 2, 67108863⟩]
private def i26 : List Item := [⟨.exprApply, 2, 10254096⟩, ⟨.exprUnion, 2, 10254096⟩, ⟨.nameWord, 0, 1406208⟩, ⟨.nameType, 0, 1406208⟩, ⟨.modulePath, 0, 1340672⟩, ⟨.exprTypeof, 0, 1340672⟩, ⟨.exprVar, 0, 1340672⟩, ⟨.exprModule, 0, 1340672⟩, ⟨.exprStructType, 0, 1340672⟩, ⟨.exprApply, 0, 1340672⟩, ⟨.exprStruct, 0, 1340672⟩, ⟨.exprAccess, 0, 1340672⟩, ⟨.exprCopy, 0, 1340672⟩, ⟨.exprUnionType, 0, 1340672⟩, ⟨.exprPackage, 0, 1340672⟩, ⟨.exprPackageNone, 0, 1340672⟩, ⟨.exprUnion, 0, 1340672⟩, ⟨.exprSelect, 0, 1340672⟩, ⟨.exprSelectDefault, 0, 1340672⟩, ⟨.exprPolyApply, 0, 1340672⟩, ⟨.exprAbstractAccess, 0, 1340672⟩, ⟨.exprCast, 0, 1340672⟩, ⟨.exprList, 0, 1340672⟩, ⟨.exprLiteral, 0, 1340672⟩, ⟨.exprBlock, 0, 1340672⟩, ⟨.blockStmt, 0, 1340672⟩, ⟨.blockFuncType, 0, 1340672⟩, ⟨.blockFunc, 0, 1340672⟩, ⟨.blockPoly, 0, 1340672⟩, ⟨.exprsOne, 0, 9216⟩, ⟨.exprsMore, 0, 9216⟩, ⟨.exprsNone, 0, 8192⟩, ⟨.exprsSome, 0, 8192⟩]
private def i27 : List Item := [⟨.exprAccess, 2, 10254096⟩, ⟨.exprCopy, 2, 10254096⟩, ⟨.exprSelect, 2, 10254096⟩, ⟨.exprSelectDefault, 2, 10254096⟩, ⟨.exprAbstractAccess, 2, 10254096⟩, ⟨.exprCast, 2, 10254096⟩, ⟨.nameWord, 0, 10254096⟩, ⟨.nameType, 0, 10254096⟩]
private def i28 : List Item := [⟨.exprPolyApply, 2, 10254096⟩, ⟨.nameWord, 0, 1332992⟩, ⟨.nameType, 0, 1332992⟩, ⟨.modulePath, 0, 1332992⟩, ⟨.exprTypeof, 0, 1332992⟩, ⟨.exprVar, 0, 1332992⟩, ⟨.exprModule, 0, 1332992⟩, ⟨.exprStructType, 0, 1332992⟩, ⟨.exprApply, 0, 1332992⟩, ⟨.exprStruct, 0, 1332992⟩, ⟨.exprAccess, 0, 1332992⟩, ⟨.exprCopy, 0, 1332992⟩, ⟨.exprUnionType, 0, 1332992⟩, ⟨.exprPackage, 0, 1332992⟩, ⟨.exprPackageNone, 0, 1332992⟩, ⟨.exprUnion, 0, 1332992⟩, ⟨.exprSelect, 0, 1332992⟩, ⟨.exprSelectDefault, 0, 1332992⟩, ⟨.exprPolyApply, 0, 1332992⟩, ⟨.exprAbstractAccess, 0, 1332992⟩, ⟨.exprCast, 0, 1332992⟩, ⟨.exprList, 0, 1332992⟩, ⟨.exprLiteral, 0, 1332992⟩, ⟨.exprBlock, 0, 1332992⟩, ⟨.blockStmt, 0, 1332992⟩, ⟨.blockFuncType, 0, 1332992⟩, ⟨.blockFunc, 0, 1332992⟩, ⟨.blockPoly, 0, 1332992⟩, ⟨.exprsOne, 0, 1536⟩, ⟨.exprsMore, 0, 1536⟩]
private def i29 : List Item := [⟨.exprList, 2, 10254096⟩, ⟨.nameWord, 0, 1856768⟩, ⟨.nameType, 0, 1856768⟩, ⟨.modulePath, 0, 1856768⟩, ⟨.exprTypeof, 0, 1856768⟩, ⟨.exprVar, 0, 1856768⟩, ⟨.exprModule, 0, 1856768⟩, ⟨.exprStructType, 0, 1856768⟩, ⟨.exprApply, 0, 1856768⟩, ⟨.exprStruct, 0, 1856768⟩, ⟨.exprAccess, 0, 1856768⟩, ⟨.exprCopy, 0, 1856768⟩, ⟨.exprUnionType, 0, 1856768⟩, ⟨.exprPackage, 0, 1856768⟩, ⟨.exprPackageNone, 0, 1856768⟩, ⟨.exprUnion, 0, 1856768⟩, ⟨.exprSelect, 0, 1856768⟩, ⟨.exprSelectDefault, 0, 1856768⟩, ⟨.exprPolyApply, 0, 1856768⟩, ⟨.exprAbstractAccess, 0, 1856768⟩, ⟨.exprCast, 0, 1856768⟩, ⟨.exprList, 0, 1856768⟩, ⟨.exprLiteral, 0, 1856768⟩, ⟨.exprBlock, 0, 1856768⟩, ⟨.blockStmt, 0, 1856768⟩, ⟨.blockFuncType, 0, 1856768⟩, ⟨.blockFunc, 0, 1856768⟩, ⟨.blockPoly, 0, 1856768⟩, ⟨.exprsOne, 0, 525312⟩, ⟨.exprsMore, 0, 525312⟩, ⟨.exprsNone, 0, 524288⟩, ⟨.exprsSome, 0, 524288⟩]
private def i30 : List Item := [⟨.exprLiteral, 2, 10254096⟩]
private def i31 : List Item := [⟨.stmtExpr, 2, 64972303⟩, ⟨.stmtDefault, 2, 64972303⟩, ⟨.nameWord, 0, 9720080⟩, ⟨.nameType, 0, 9720080⟩, ⟨.modulePath, 0, 9720080⟩, ⟨.nkindBasic, 0, 16⟩, ⟨.nkindPoly, 0, 16⟩, ⟨.tkindBasic, 0, 16⟩, ⟨.tkindPoly, 0, 16⟩, ⟨.kindN, 0, 16⟩, ⟨.kindT, 0, 16⟩, ⟨.exprTypeof, 0, 9720080⟩, ⟨.exprVar, 0, 9720080⟩, ⟨.exprModule, 0, 9720080⟩, ⟨.exprStructType, 0, 9720080⟩, ⟨.exprApply, 0, 9720080⟩, ⟨.exprStruct, 0, 9720080⟩, ⟨.exprAccess, 0, 9720080⟩, ⟨.exprCopy, 0, 9720080⟩, ⟨.exprUnionType, 0, 9720080⟩, ⟨.exprPackage, 0, 9720080⟩, ⟨.exprPackageNone, 0, 9720080⟩, ⟨.exprUnion, 0, 9720080⟩, ⟨.exprSelect, 0, 9720080⟩, ⟨.exprSelectDefault, 0, 9720080⟩, ⟨.exprPolyApply, 0, 9720080⟩, ⟨.exprAbstractAccess, 0, 9720080⟩, ⟨.exprCast, 0, 9720080⟩, ⟨.exprList, 0, 9720080⟩, ⟨.exprLiteral, 0, 9720080⟩, ⟨.exprBlock, 0, 9720080⟩, ⟨.blockStmt, 0, 9720080⟩, ⟨.blockFuncType, 0, 9720080⟩, ⟨.blockFunc, 0, 9720080⟩, ⟨.blockPoly, 0, 9720080⟩, ⟨.stmtExpr, 0, 64972303⟩, ⟨.stmtLet, 0, 64972303⟩, ⟨.stmtBind, 0, 64972303⟩, ⟨.stmtDefault, 0, 64972303⟩, ⟨.taggedType, 0, 1280⟩, ⟨.taggedTypesOne, 0, 1280⟩, ⟨.taggedTypesMore, 0, 1280⟩, ⟨.bindType, 0, 8389632⟩, ⟨.bindKind, 0, 8389632⟩, ⟨.bindMoreType, 0, 8389632⟩, ⟨.bindMoreKind, 0, 8389632⟩]
private def i32 : List Item := [⟨.taggedType, 2, 1280⟩, ⟨.bindType, 2, 8389632⟩]
private def i33 : List Item := [⟨.stmtLet, 2, 64972303⟩, ⟨.nameWord, 0, 9720080⟩, ⟨.nameType, 0, 9720080⟩, ⟨.modulePath, 0, 9720080⟩, ⟨.nkindBasic, 0, 16⟩, ⟨.nkindPoly, 0, 16⟩, ⟨.tkindBasic, 0, 16⟩, ⟨.tkindPoly, 0, 16⟩, ⟨.kindN, 0, 16⟩, ⟨.kindT, 0, 16⟩, ⟨.exprTypeof, 0, 9720080⟩, ⟨.exprVar, 0, 9720080⟩, ⟨.exprModule, 0, 9720080⟩, ⟨.exprStructType, 0, 9720080⟩, ⟨.exprApply, 0, 9720080⟩, ⟨.exprStruct, 0, 9720080⟩, ⟨.exprAccess, 0, 9720080⟩, ⟨.exprCopy, 0, 9720080⟩, ⟨.exprUnionType, 0, 9720080⟩, ⟨.exprPackage, 0, 9720080⟩, ⟨.exprPackageNone, 0, 9720080⟩, ⟨.exprUnion, 0, 9720080⟩, ⟨.exprSelect, 0, 9720080⟩, ⟨.exprSelectDefault, 0, 9720080⟩, ⟨.exprPolyApply, 0, 9720080⟩, ⟨.exprAbstractAccess, 0, 9720080⟩, ⟨.exprCast, 0, 9720080⟩, ⟨.exprList, 0, 9720080⟩, ⟨.exprLiteral, 0, 9720080⟩, ⟨.exprBlock, 0, 9720080⟩, ⟨.blockStmt, 0, 9720080⟩, ⟨.blockFuncType, 0, 9720080⟩, ⟨.blockFunc, 0, 9720080⟩, ⟨.blockPoly, 0, 9720080⟩, ⟨.stmtExpr, 0, 64972303⟩, ⟨.stmtLet, 0, 64972303⟩, ⟨.stmtBind, 0, 64972303⟩, ⟨.stmtDefault, 0, 64972303⟩, ⟨.taggedType, 0, 1280⟩, ⟨.taggedTypesOne, 0, 1280⟩, ⟨.taggedTypesMore, 0, 1280⟩, ⟨.bindType, 0, 8389632⟩, ⟨.bindKind, 0, 8389632⟩, ⟨.bindMoreType, 0, 8389632⟩, ⟨.bindMoreKind, 0, 8389632⟩]
private def i34 : List Item := [⟨.bindMoreType, 2, 8389632⟩, ⟨.bindMoreKind, 2, 8389632⟩, ⟨.nameWord, 0, 1331472⟩, ⟨.nameType, 0, 1331472⟩, ⟨.modulePath, 0, 1331472⟩, ⟨.nkindBasic, 0, 16⟩, ⟨.nkindPoly, 0, 16⟩, ⟨.tkindBasic, 0, 16⟩, ⟨.tkindPoly, 0, 16⟩, ⟨.kindN, 0, 16⟩, ⟨.kindT, 0, 16⟩, ⟨.exprTypeof, 0, 1331472⟩, ⟨.exprVar, 0, 1331472⟩, ⟨.exprModule, 0, 1331472⟩, ⟨.exprStructType, 0, 1331472⟩, ⟨.exprApply, 0, 1331472⟩, ⟨.exprStruct, 0, 1331472⟩, ⟨.exprAccess, 0, 1331472⟩, ⟨.exprCopy, 0, 1331472⟩, ⟨.exprUnionType, 0, 1331472⟩, ⟨.exprPackage, 0, 1331472⟩, ⟨.exprPackageNone, 0, 1331472⟩, ⟨.exprUnion, 0, 1331472⟩, ⟨.exprSelect, 0, 1331472⟩, ⟨.exprSelectDefault, 0, 1331472⟩, ⟨.exprPolyApply, 0, 1331472⟩, ⟨.exprAbstractAccess, 0, 1331472⟩, ⟨.exprCast, 0, 1331472⟩, ⟨.exprList, 0, 1331472⟩, ⟨.exprLiteral, 0, 1331472⟩, ⟨.exprBlock, 0, 1331472⟩, ⟨.blockStmt, 0, 1331472⟩, ⟨.blockFuncType, 0, 1331472⟩, ⟨.blockFunc, 0, 1331472⟩, ⟨.blockPoly, 0, 1331472⟩]
private def i35 : List Item := [⟨.stmtBind, 2, 64972303⟩]
private def i36 : List Item := [⟨.taggedTypesMore, 2, 9472⟩, ⟨.nameWord, 0, 1331472⟩, ⟨.nameType, 0, 1331472⟩, ⟨.modulePath, 0, 1331472⟩, ⟨.exprTypeof, 0, 1331472⟩, ⟨.exprVar, 0, 1331472⟩, ⟨.exprModule, 0, 1331472⟩, ⟨.exprStructType, 0, 1331472⟩, ⟨.exprApply, 0, 1331472⟩, ⟨.exprStruct, 0, 1331472⟩, ⟨.exprAccess, 0, 1331472⟩, ⟨.exprCopy, 0, 1331472⟩, ⟨.exprUnionType, 0, 1331472⟩, ⟨.exprPackage, 0, 1331472⟩, ⟨.exprPackageNone, 0, 1331472⟩, ⟨.exprUnion, 0, 1331472⟩, ⟨.exprSelect, 0, 1331472⟩, ⟨.exprSelectDefault, 0, 1331472⟩, ⟨.exprPolyApply, 0, 1331472⟩, ⟨.exprAbstractAccess, 0, 1331472⟩, ⟨.exprCast, 0, 1331472⟩, ⟨.exprList, 0, 1331472⟩, ⟨.exprLiteral, 0, 1331472⟩, ⟨.exprBlock, 0, 1331472⟩, ⟨.blockStmt, 0, 1331472⟩, ⟨.blockFuncType, 0, 1331472⟩, ⟨.blockFunc, 0, 1331472⟩, ⟨.blockPoly, 0, 1331472⟩, ⟨.taggedType, 0, 9472⟩]
private def i37 : List Item := [⟨.exprTypeof, 2, 10254096⟩, ⟨.nameWord, 0, 1331968⟩, ⟨.nameType, 0, 1331968⟩, ⟨.modulePath, 0, 1331968⟩, ⟨.exprTypeof, 0, 1331968⟩, ⟨.exprVar, 0, 1331968⟩, ⟨.exprModule, 0, 1331968⟩, ⟨.exprStructType, 0, 1331968⟩, ⟨.exprApply, 0, 1331968⟩, ⟨.exprStruct, 0, 1331968⟩, ⟨.exprAccess, 0, 1331968⟩, ⟨.exprCopy, 0, 1331968⟩, ⟨.exprUnionType, 0, 1331968⟩, ⟨.exprPackage, 0, 1331968⟩, ⟨.exprPackageNone, 0, 1331968⟩, ⟨.exprUnion, 0, 1331968⟩, ⟨.exprSelect, 0, 1331968⟩, ⟨.exprSelectDefault, 0, 1331968⟩, ⟨.exprPolyApply, 0, 1331968⟩, ⟨.exprAbstractAccess, 0, 1331968⟩, ⟨.exprCast, 0, 1331968⟩, ⟨.exprList, 0, 1331968⟩, ⟨.exprLiteral, 0, 1331968⟩, ⟨.exprBlock, 0, 1331968⟩, ⟨.blockStmt, 0, 1331968⟩, ⟨.blockFuncType, 0, 1331968⟩, ⟨.blockFunc, 0, 1331968⟩, ⟨.blockPoly, 0, 1331968⟩]
private def i38 : List Item := [⟨.exprStruct, 2, 10254096⟩, ⟨.nameWord, 0, 74752⟩, ⟨.nameType, 0, 74752⟩, ⟨.implicitVar, 0, 9216⟩, ⟨.implicitColon, 0, 9216⟩, ⟨.implicitsOne, 0, 9216⟩, ⟨.implicitsMore, 0, 9216⟩, ⟨.implicitsNone, 0, 8192⟩, ⟨.implicitsSome, 0, 8192⟩]
private def i39 : List Item := [⟨.exprStructType, 2, 10254096⟩, ⟨.nameWord, 0, 1331472⟩, ⟨.nameType, 0, 1331472⟩, ⟨.modulePath, 0, 1331472⟩, ⟨.exprTypeof, 0, 1331472⟩, ⟨.exprVar, 0, 1331472⟩, ⟨.exprModule, 0, 1331472⟩, ⟨.exprStructType, 0, 1331472⟩, ⟨.exprApply, 0, 1331472⟩, ⟨.exprStruct, 0, 1331472⟩, ⟨.exprAccess, 0, 1331472⟩, ⟨.exprCopy, 0, 1331472⟩, ⟨.exprUnionType, 0, 1331472⟩, ⟨.exprPackage, 0, 1331472⟩, ⟨.exprPackageNone, 0, 1331472⟩, ⟨.exprUnion, 0, 1331472⟩, ⟨.exprSelect, 0, 1331472⟩, ⟨.exprSelectDefault, 0, 1331472⟩, ⟨.exprPolyApply, 0, 1331472⟩, ⟨.exprAbstractAccess, 0, 1331472⟩, ⟨.exprCast, 0, 1331472⟩, ⟨.exprList, 0, 1331472⟩, ⟨.exprLiteral, 0, 1331472⟩, ⟨.exprBlock, 0, 1331472⟩, ⟨.blockStmt, 0, 1331472⟩, ⟨.blockFuncType, 0, 1331472⟩, ⟨.blockFunc, 0, 1331472⟩, ⟨.blockPoly, 0, 1331472⟩, ⟨.taggedType, 0, 9216⟩, ⟨.taggedTypesOne, 0, 9216⟩, ⟨.taggedTypesMore, 0, 9216⟩, ⟨.taggedTypesNone, 0, 8192⟩, ⟨.taggedTypesSome, 0, 8192⟩]
private def i40 : List Item := [⟨.exprUnionType, 2, 10254096⟩, ⟨.nameWord, 0, 1331472⟩, ⟨.nameType, 0, 1331472⟩, ⟨.modulePath, 0, 1331472⟩, ⟨.exprTypeof, 0, 1331472⟩, ⟨.exprVar, 0, 1331472⟩, ⟨.exprModule, 0, 1331472⟩, ⟨.exprStructType, 0, 1331472⟩, ⟨.exprApply, 0, 1331472⟩, ⟨.exprStruct, 0, 1331472⟩, ⟨.exprAccess, 0, 1331472⟩, ⟨.exprCopy, 0, 1331472⟩, ⟨.exprUnionType, 0, 1331472⟩, ⟨.exprPackage, 0, 1331472⟩, ⟨.exprPackageNone, 0, 1331472⟩, ⟨.exprUnion, 0, 1331472⟩, ⟨.exprSelect, 0, 1331472⟩, ⟨.exprSelectDefault, 0, 1331472⟩, ⟨.exprPolyApply, 0, 1331472⟩, ⟨.exprAbstractAccess, 0, 1331472⟩, ⟨.exprCast, 0, 1331472⟩, ⟨.exprList, 0, 1331472⟩, ⟨.exprLiteral, 0, 1331472⟩, ⟨.exprBlock, 0, 1331472⟩, ⟨.blockStmt, 0, 1331472⟩, ⟨.blockFuncType, 0, 1331472⟩, ⟨.blockFunc, 0, 1331472⟩, ⟨.blockPoly, 0, 1331472⟩, ⟨.taggedType, 0, 9216⟩, ⟨.taggedTypesOne, 0, 9216⟩, ⟨.taggedTypesMore, 0, 9216⟩]
private def i41 : List Item := [⟨.exprPackage, 2, 10254096⟩, ⟨.exprPackageNone, 2, 10254096⟩, ⟨.modulePath, 0, 8192⟩]
private def i42 : List Item := [⟨.bindKind, 2, 8389632⟩]
private def i43 : List Item := [⟨.nameType, 2, 43874064⟩]
private def i44 : List Item := [⟨.pathSlash, 1, 192⟩, ⟨.modulePath, 2, 67108863⟩]
private def i45 : List Item := [⟨.pathWord, 1, 192⟩]
private def i46 : List Item := [⟨.blockStmt, 2, 10254096⟩]
private def i47 : List Item := [⟨.blockFuncType, 2, 10254096⟩, ⟨.exprsMore, 1, 9216⟩]
private def i48 : List Item := [⟨.blockFunc, 2, 10254096⟩, ⟨.taggedTypesMore, 1, 9216⟩]
private def i49 : List Item := [⟨.exprApply, 1, 1340688⟩, ⟨.exprAccess, 1, 1340688⟩, ⟨.exprCopy, 1, 1340688⟩, ⟨.exprUnion, 1, 1340688⟩, ⟨.exprSelect, 1, 1340688⟩, ⟨.exprSelectDefault, 1, 1340688⟩, ⟨.exprPolyApply, 1, 1340688⟩, ⟨.exprAbstractAccess, 1, 1340688⟩, ⟨.exprCast, 1, 1340688⟩, ⟨.exprList, 1, 1340688⟩, ⟨.exprLiteral, 1, 1340688⟩, ⟨.exprsOne, 1, 9216⟩, ⟨.taggedType, 1, 9216⟩, ⟨.nameWord, 0, 9216⟩, ⟨.nameType, 0, 9216⟩]
private def i50 : List Item := [⟨.exprTypeof, 1, 10254096⟩, ⟨.exprStruct, 1, 10254096⟩]
private def i51 : List Item := [⟨.exprPackage, 1, 10254096⟩, ⟨.exprPackageNone, 1, 10254096⟩]
private def i52 : List Item := [⟨.blockPoly, 1, 10254096⟩, ⟨.nkindBasic, 0, 16⟩, ⟨.nkindPoly, 0, 16⟩, ⟨.tkindBasic, 0, 16⟩, ⟨.tkindPoly, 0, 16⟩, ⟨.kindN, 0, 16⟩, ⟨.kindT, 0, 16⟩, ⟨.taggedKindsOne, 0, 1536⟩, ⟨.taggedKindsMore, 0, 1536⟩]
private def i53 : List Item := [⟨.nkindPoly, 2, 16⟩, ⟨.tkindPoly, 2, 1552⟩, ⟨.tkindsMore, 1, 1536⟩]
private def i54 : List Item := [⟨.taggedKindsMore, 1, 1536⟩, ⟨.blockPoly, 2, 10254096⟩]
private def i55 : List Item := [⟨.kindT, 1, 16⟩, ⟨.tkindsOne, 1, 1536⟩]
private def i56 : List Item := [⟨.taggedKindsOne, 1, 1536⟩, ⟨.nameWord, 0, 1536⟩, ⟨.nameType, 0, 1536⟩]
private def i57 : List Item := [⟨.tkindBasic, 1, 1552⟩]
private def i58 : List Item := [⟨.nkindPoly, 1, 16⟩, ⟨.tkindPoly, 1, 1552⟩, ⟨.tkindBasic, 0, 1536⟩, ⟨.tkindPoly, 0, 1536⟩, ⟨.tkindsOne, 0, 1536⟩, ⟨.tkindsMore, 0, 1536⟩]
private def i59 : List Item := [⟨.nkindBasic, 1, 16⟩]
private def i60 : List Item := [⟨.exprApply, 3, 10254096⟩]
private def i61 : List Item := [⟨.exprVar, 1, 1340672⟩, ⟨.exprUnion, 3, 10254096⟩]
private def i62 : List Item := [⟨.exprsMore, 1, 533504⟩, ⟨.exprsSome, 1, 532480⟩]
private def i63 : List Item := [⟨.exprApply, 1, 1865472⟩, ⟨.exprAccess, 1, 1865472⟩, ⟨.exprCopy, 1, 1865472⟩, ⟨.exprUnion, 1, 1865472⟩, ⟨.exprSelect, 1, 1865472⟩, ⟨.exprSelectDefault, 1, 1865472⟩, ⟨.exprPolyApply, 1, 1865472⟩, ⟨.exprAbstractAccess, 1, 1865472⟩, ⟨.exprCast, 1, 1865472⟩, ⟨.exprList, 1, 1865472⟩, ⟨.exprLiteral, 1, 1865472⟩, ⟨.exprsOne, 1, 534016⟩]
private def i64 : List Item := [⟨.exprAccess, 3, 10254096⟩]
private def i65 : List Item := [⟨.exprCopy, 3, 10254096⟩]
private def i66 : List Item := [⟨.exprSelect, 3, 10254096⟩, ⟨.exprSelectDefault, 3, 10254096⟩]
private def i67 : List Item := [⟨.exprAbstractAccess, 3, 10254096⟩]
private def i68 : List Item := [⟨.exprCast, 3, 10254096⟩, ⟨.nameWord, 0, 1331968⟩, ⟨.nameType, 0, 1331968⟩, ⟨.modulePath, 0, 1331968⟩, ⟨.exprTypeof, 0, 1331968⟩, ⟨.exprVar, 0, 1331968⟩, ⟨.exprModule, 0, 1331968⟩, ⟨.exprStructType, 0, 1331968⟩, ⟨.exprApply, 0, 1331968⟩, ⟨.exprStruct, 0, 1331968⟩, ⟨.exprAccess, 0, 1331968⟩, ⟨.exprCopy, 0, 1331968⟩, ⟨.exprUnionType, 0, 1331968⟩, ⟨.exprPackage, 0, 1331968⟩, ⟨.exprPackageNone, 0, 1331968⟩, ⟨.exprUnion, 0, 1331968⟩, ⟨.exprSelect, 0, 1331968⟩, ⟨.exprSelectDefault, 0, 1331968⟩, ⟨.exprPolyApply, 0, 1331968⟩, ⟨.exprAbstractAccess, 0, 1331968⟩, ⟨.exprCast, 0, 1331968⟩, ⟨.exprList, 0, 1331968⟩, ⟨.exprLiteral, 0, 1331968⟩, ⟨.exprBlock, 0, 1331968⟩, ⟨.blockStmt, 0, 1331968⟩, ⟨.blockFuncType, 0, 1331968⟩, ⟨.blockFunc, 0, 1331968⟩, ⟨.blockPoly, 0, 1331968⟩]
private def i69 : List Item := [⟨.exprPolyApply, 3, 10254096⟩, ⟨.exprsMore, 1, 1536⟩]
private def i70 : List Item := [⟨.exprList, 3, 10254096⟩]
private def i71 : List Item := [⟨.exprLiteral, 3, 10254096⟩]
private def i72 : List Item := [⟨.stmtDefault, 3, 64972303⟩]
private def i73 : List Item := [⟨.bindType, 3, 8389632⟩, ⟨.nameWord, 0, 9721088⟩, ⟨.nameType, 0, 9721088⟩, ⟨.modulePath, 0, 9721088⟩, ⟨.exprTypeof, 0, 9721088⟩, ⟨.exprVar, 0, 9721088⟩, ⟨.exprModule, 0, 9721088⟩, ⟨.exprStructType, 0, 9721088⟩, ⟨.exprApply, 0, 9721088⟩, ⟨.exprStruct, 0, 9721088⟩, ⟨.exprAccess, 0, 9721088⟩, ⟨.exprCopy, 0, 9721088⟩, ⟨.exprUnionType, 0, 9721088⟩, ⟨.exprPackage, 0, 9721088⟩, ⟨.exprPackageNone, 0, 9721088⟩, ⟨.exprUnion, 0, 9721088⟩, ⟨.exprSelect, 0, 9721088⟩, ⟨.exprSelectDefault, 0, 9721088⟩, ⟨.exprPolyApply, 0, 9721088⟩, ⟨.exprAbstractAccess, 0, 9721088⟩, ⟨.exprCast, 0, 9721088⟩, ⟨.exprList, 0, 9721088⟩, ⟨.exprLiteral, 0, 9721088⟩, ⟨.exprBlock, 0, 9721088⟩, ⟨.blockStmt, 0, 9721088⟩, ⟨.blockFuncType, 0, 9721088⟩, ⟨.blockFunc, 0, 9721088⟩, ⟨.blockPoly, 0, 9721088⟩]
private def i74 : List Item := [⟨.stmtLet, 3, 64972303⟩]
private def i75 : List Item := [⟨.exprApply, 1, 1331472⟩, ⟨.exprAccess, 1, 1331472⟩, ⟨.exprCopy, 1, 1331472⟩, ⟨.exprUnion, 1, 1331472⟩, ⟨.exprSelect, 1, 1331472⟩, ⟨.exprSelectDefault, 1, 1331472⟩, ⟨.exprPolyApply, 1, 1331472⟩, ⟨.exprAbstractAccess, 1, 1331472⟩, ⟨.exprCast, 1, 1331472⟩, ⟨.exprList, 1, 1331472⟩, ⟨.exprLiteral, 1, 1331472⟩, ⟨.bindMoreType, 3, 8389632⟩, ⟨.nameWord, 0, 33554432⟩, ⟨.nameType, 0, 33554432⟩]
private def i76 : List Item := [⟨.bindMoreKind, 3, 8389632⟩, ⟨.nameWord, 0, 33554432⟩, ⟨.nameType, 0, 33554432⟩]
private def i77 : List Item := [⟨.stmtBind, 3, 64972303⟩, ⟨.nameWord, 0, 9720064⟩, ⟨.nameType, 0, 9720064⟩, ⟨.modulePath, 0, 9720064⟩, ⟨.exprTypeof, 0, 9720064⟩, ⟨.exprVar, 0, 9720064⟩, ⟨.exprModule, 0, 9720064⟩, ⟨.exprStructType, 0, 9720064⟩, ⟨.exprApply, 0, 9720064⟩, ⟨.exprStruct, 0, 9720064⟩, ⟨.exprAccess, 0, 9720064⟩, ⟨.exprCopy, 0, 9720064⟩, ⟨.exprUnionType, 0, 9720064⟩, ⟨.exprPackage, 0, 9720064⟩, ⟨.exprPackageNone, 0, 9720064⟩, ⟨.exprUnion, 0, 9720064⟩, ⟨.exprSelect, 0, 9720064⟩, ⟨.exprSelectDefault, 0, 9720064⟩, ⟨.exprPolyApply, 0, 9720064⟩, ⟨.exprAbstractAccess, 0, 9720064⟩, ⟨.exprCast, 0, 9720064⟩, ⟨.exprList, 0, 9720064⟩, ⟨.exprLiteral, 0, 9720064⟩, ⟨.exprBlock, 0, 9720064⟩, ⟨.blockStmt, 0, 9720064⟩, ⟨.blockFuncType, 0, 9720064⟩, ⟨.blockFunc, 0, 9720064⟩, ⟨.blockPoly, 0, 9720064⟩]
private def i78 : List Item := [⟨.taggedTypesMore, 3, 9472⟩]
private def i79 : List Item := [⟨.exprApply, 1, 1331472⟩, ⟨.exprAccess, 1, 1331472⟩, ⟨.exprCopy, 1, 1331472⟩, ⟨.exprUnion, 1, 1331472⟩, ⟨.exprSelect, 1, 1331472⟩, ⟨.exprSelectDefault, 1, 1331472⟩, ⟨.exprPolyApply, 1, 1331472⟩, ⟨.exprAbstractAccess, 1, 1331472⟩, ⟨.exprCast, 1, 1331472⟩, ⟨.exprList, 1, 1331472⟩, ⟨.exprLiteral, 1, 1331472⟩, ⟨.taggedType, 1, 9472⟩, ⟨.nameWord, 0, 9472⟩, ⟨.nameType, 0, 9472⟩]
private def i80 : List Item := [⟨.exprTypeof, 3, 10254096⟩, ⟨.exprApply, 1, 1331968⟩, ⟨.exprAccess, 1, 1331968⟩, ⟨.exprCopy, 1, 1331968⟩, ⟨.exprUnion, 1, 1331968⟩, ⟨.exprSelect, 1, 1331968⟩, ⟨.exprSelectDefault, 1, 1331968⟩, ⟨.exprPolyApply, 1, 1331968⟩, ⟨.exprAbstractAccess, 1, 1331968⟩, ⟨.exprCast, 1, 1331968⟩, ⟨.exprList, 1, 1331968⟩, ⟨.exprLiteral, 1, 1331968⟩]
private def i81 : List Item := [⟨.exprStruct, 3, 10254096⟩]
private def i82 : List Item := [⟨.implicitsMore, 1, 9216⟩, ⟨.implicitsSome, 1, 8192⟩]
private def i83 : List Item := [⟨.implicitsOne, 1, 9216⟩]
private def i84 : List Item := [⟨.implicitVar, 1, 9216⟩, ⟨.implicitColon, 1, 9216⟩]
private def i85 : List Item := [⟨.exprStructType, 3, 10254096⟩]
private def i86 : List Item := [⟨.taggedTypesMore, 1, 9216⟩, ⟨.taggedTypesSome, 1, 8192⟩]
private def i87 : List Item := [⟨.exprUnionType, 3, 10254096⟩, ⟨.taggedTypesMore, 1, 9216⟩]
private def i88 : List Item := [⟨.exprPackage, 3, 10254096⟩]
private def i89 : List Item := [⟨.exprPackageNone, 3, 10254096⟩]
private def i90 : List Item := [⟨.bindKind, 3, 8389632⟩, ⟨.nameWord, 0, 9721088⟩, ⟨.nameType, 0, 9721088⟩, ⟨.modulePath, 0, 9721088⟩, ⟨.exprTypeof, 0, 9721088⟩, ⟨.exprVar, 0, 9721088⟩, ⟨.exprModule, 0, 9721088⟩, ⟨.exprStructType, 0, 9721088⟩, ⟨.exprApply, 0, 9721088⟩, ⟨.exprStruct, 0, 9721088⟩, ⟨.exprAccess, 0, 9721088⟩, ⟨.exprCopy, 0, 9721088⟩, ⟨.exprUnionType, 0, 9721088⟩, ⟨.exprPackage, 0, 9721088⟩, ⟨.exprPackageNone, 0, 9721088⟩, ⟨.exprUnion, 0, 9721088⟩, ⟨.exprSelect, 0, 9721088⟩, ⟨.exprSelectDefault, 0, 9721088⟩, ⟨.exprPolyApply, 0, 9721088⟩, ⟨.exprAbstractAccess, 0, 9721088⟩, ⟨.exprCast, 0, 9721088⟩, ⟨.exprList, 0, 9721088⟩, ⟨.exprLiteral, 0, 9721088⟩, ⟨.exprBlock, 0, 9721088⟩, ⟨.blockStmt, 0, 9721088⟩, ⟨.blockFuncType, 0, 9721088⟩, ⟨.blockFunc, 0, 9721088⟩, ⟨.blockPoly, 0, 9721088⟩]
private def i91 : List Item := [⟨.pathSlash, 2, 192⟩]
private def i92 : List Item := [⟨.modulePath, 3, 67108863⟩]
private def i93 : List Item := [⟨.blockStmt, 3, 10254096⟩]
private def i94 : List Item := [⟨.blockFuncType, 3, 10254096⟩, ⟨.blockStmt, 0, 10254096⟩, ⟨.blockFuncType, 0, 10254096⟩, ⟨.blockFunc, 0, 10254096⟩, ⟨.blockPoly, 0, 10254096⟩]
private def i95 : List Item := [⟨.exprsMore, 2, 534016⟩, ⟨.nameWord, 0, 1865472⟩, ⟨.nameType, 0, 1865472⟩, ⟨.modulePath, 0, 1865472⟩, ⟨.exprTypeof, 0, 1865472⟩, ⟨.exprVar, 0, 1865472⟩, ⟨.exprModule, 0, 1865472⟩, ⟨.exprStructType, 0, 1865472⟩, ⟨.exprApply, 0, 1865472⟩, ⟨.exprStruct, 0, 1865472⟩, ⟨.exprAccess, 0, 1865472⟩, ⟨.exprCopy, 0, 1865472⟩, ⟨.exprUnionType, 0, 1865472⟩, ⟨.exprPackage, 0, 1865472⟩, ⟨.exprPackageNone, 0, 1865472⟩, ⟨.exprUnion, 0, 1865472⟩, ⟨.exprSelect, 0, 1865472⟩, ⟨.exprSelectDefault, 0, 1865472⟩, ⟨.exprPolyApply, 0, 1865472⟩, ⟨.exprAbstractAccess, 0, 1865472⟩, ⟨.exprCast, 0, 1865472⟩, ⟨.exprList, 0, 1865472⟩, ⟨.exprLiteral, 0, 1865472⟩, ⟨.exprBlock, 0, 1865472⟩, ⟨.blockStmt, 0, 1865472⟩, ⟨.blockFuncType, 0, 1865472⟩, ⟨.blockFunc, 0, 1865472⟩, ⟨.blockPoly, 0, 1865472⟩]
private def i96 : List Item := [⟨.blockFunc, 3, 10254096⟩, ⟨.blockStmt, 0, 10254096⟩, ⟨.blockFuncType, 0, 10254096⟩, ⟨.blockFunc, 0, 10254096⟩, ⟨.blockPoly, 0, 10254096⟩]
private def i97 : List Item := [⟨.taggedType, 2, 9472⟩]
private def i98 : List Item := [⟨.nkindPoly, 3, 16⟩, ⟨.tkindPoly, 3, 1552⟩, ⟨.nkindBasic, 0, 16⟩, ⟨.nkindPoly, 0, 16⟩, ⟨.tkindBasic, 0, 1552⟩, ⟨.tkindPoly, 0, 1552⟩]
private def i99 : List Item := [⟨.tkindsMore, 2, 1536⟩, ⟨.tkindBasic, 0, 1536⟩, ⟨.tkindPoly, 0, 1536⟩]
private def i100 : List Item := [⟨.taggedKindsMore, 2, 1536⟩, ⟨.nkindBasic, 0, 16⟩, ⟨.nkindPoly, 0, 16⟩, ⟨.tkindBasic, 0, 16⟩, ⟨.tkindPoly, 0, 16⟩, ⟨.kindN, 0, 16⟩, ⟨.kindT, 0, 16⟩]
private def i101 : List Item := [⟨.blockPoly, 3, 10254096⟩, ⟨.blockStmt, 0, 10254096⟩, ⟨.blockFuncType, 0, 10254096⟩, ⟨.blockFunc, 0, 10254096⟩, ⟨.blockPoly, 0, 10254096⟩]
private def i102 : List Item := [⟨.taggedKindsOne, 2, 1536⟩]
private def i103 : List Item := [⟨.tkindsOne, 1, 1536⟩]
private def i104 : List Item := [⟨.tkindPoly, 1, 1536⟩, ⟨.tkindBasic, 0, 1536⟩, ⟨.tkindPoly, 0, 1536⟩, ⟨.tkindsOne, 0, 1536⟩, ⟨.tkindsMore, 0, 1536⟩]
private def i105 : List Item := [⟨.exprApply, 4, 10254096⟩]
private def i106 : List Item := [⟨.exprUnion, 4, 10254096⟩, ⟨.nameWord, 0, 1339648⟩, ⟨.nameType, 0, 1339648⟩, ⟨.modulePath, 0, 1339648⟩, ⟨.exprTypeof, 0, 1339648⟩, ⟨.exprVar, 0, 1339648⟩, ⟨.exprModule, 0, 1339648⟩, ⟨.exprStructType, 0, 1339648⟩, ⟨.exprApply, 0, 1339648⟩, ⟨.exprStruct, 0, 1339648⟩, ⟨.exprAccess, 0, 1339648⟩, ⟨.exprCopy, 0, 1339648⟩, ⟨.exprUnionType, 0, 1339648⟩, ⟨.exprPackage, 0, 1339648⟩, ⟨.exprPackageNone, 0, 1339648⟩, ⟨.exprUnion, 0, 1339648⟩, ⟨.exprSelect, 0, 1339648⟩, ⟨.exprSelectDefault, 0, 1339648⟩, ⟨.exprPolyApply, 0, 1339648⟩, ⟨.exprAbstractAccess, 0, 1339648⟩, ⟨.exprCast, 0, 1339648⟩, ⟨.exprList, 0, 1339648⟩, ⟨.exprLiteral, 0, 1339648⟩, ⟨.exprBlock, 0, 1339648⟩, ⟨.blockStmt, 0, 1339648⟩, ⟨.blockFuncType, 0, 1339648⟩, ⟨.blockFunc, 0, 1339648⟩, ⟨.blockPoly, 0, 1339648⟩]
private def i107 : List Item := [⟨.exprCopy, 4, 10254096⟩, ⟨.nameWord, 0, 74752⟩, ⟨.nameType, 0, 74752⟩, ⟨.implicitVar, 0, 9216⟩, ⟨.implicitColon, 0, 9216⟩, ⟨.implicitsOne, 0, 9216⟩, ⟨.implicitsMore, 0, 9216⟩]
private def i108 : List Item := [⟨.exprSelect, 4, 10254096⟩, ⟨.exprSelectDefault, 4, 10254096⟩, ⟨.nameWord, 0, 65536⟩, ⟨.nameType, 0, 65536⟩, ⟨.taggedExpr, 0, 9216⟩, ⟨.taggedExprsOne, 0, 9216⟩, ⟨.taggedExprsMore, 0, 9216⟩]
private def i109 : List Item := [⟨.exprApply, 1, 1331968⟩, ⟨.exprAccess, 1, 1331968⟩, ⟨.exprCopy, 1, 1331968⟩, ⟨.exprUnion, 1, 1331968⟩, ⟨.exprSelect, 1, 1331968⟩, ⟨.exprSelectDefault, 1, 1331968⟩, ⟨.exprPolyApply, 1, 1331968⟩, ⟨.exprAbstractAccess, 1, 1331968⟩, ⟨.exprCast, 1, 1331968⟩, ⟨.exprCast, 4, 10254096⟩, ⟨.exprList, 1, 1331968⟩, ⟨.exprLiteral, 1, 1331968⟩]
private def i110 : List Item := [⟨.exprPolyApply, 4, 10254096⟩]
private def i111 : List Item := [⟨.exprList, 4, 10254096⟩]
private def i112 : List Item := [⟨.exprApply, 1, 9721088⟩, ⟨.exprAccess, 1, 9721088⟩, ⟨.exprCopy, 1, 9721088⟩, ⟨.exprUnion, 1, 9721088⟩, ⟨.exprSelect, 1, 9721088⟩, ⟨.exprSelectDefault, 1, 9721088⟩, ⟨.exprPolyApply, 1, 9721088⟩, ⟨.exprAbstractAccess, 1, 9721088⟩, ⟨.exprCast, 1, 9721088⟩, ⟨.exprList, 1, 9721088⟩, ⟨.exprLiteral, 1, 9721088⟩, ⟨.bindType, 4, 8389632⟩]
private def i113 : List Item := [⟨.bindMoreType, 4, 8389632⟩]
private def i114 : List Item := [⟨.bindMoreKind, 4, 8389632⟩]
private def i115 : List Item := [⟨.exprApply, 1, 9720064⟩, ⟨.exprAccess, 1, 9720064⟩, ⟨.exprCopy, 1, 9720064⟩, ⟨.exprUnion, 1, 9720064⟩, ⟨.exprSelect, 1, 9720064⟩, ⟨.exprSelectDefault, 1, 9720064⟩, ⟨.exprPolyApply, 1, 9720064⟩, ⟨.exprAbstractAccess, 1, 9720064⟩, ⟨.exprCast, 1, 9720064⟩, ⟨.exprList, 1, 9720064⟩, ⟨.exprLiteral, 1, 9720064⟩, ⟨.stmtBind, 4, 64972303⟩]
private def i116 : List Item := [⟨.exprTypeof, 4, 10254096⟩]
private def i117 : List Item := [⟨.exprStruct, 4, 10254096⟩]
private def i118 : List Item := [⟨.implicitsMore, 2, 9216⟩, ⟨.nameWord, 0, 74752⟩, ⟨.nameType, 0, 74752⟩, ⟨.implicitVar, 0, 9216⟩, ⟨.implicitColon, 0, 9216⟩]
private def i119 : List Item := [⟨.implicitColon, 2, 9216⟩, ⟨.nameWord, 0, 1340672⟩, ⟨.nameType, 0, 1340672⟩, ⟨.modulePath, 0, 1340672⟩, ⟨.exprTypeof, 0, 1340672⟩, ⟨.exprVar, 0, 1340672⟩, ⟨.exprModule, 0, 1340672⟩, ⟨.exprStructType, 0, 1340672⟩, ⟨.exprApply, 0, 1340672⟩, ⟨.exprStruct, 0, 1340672⟩, ⟨.exprAccess, 0, 1340672⟩, ⟨.exprCopy, 0, 1340672⟩, ⟨.exprUnionType, 0, 1340672⟩, ⟨.exprPackage, 0, 1340672⟩, ⟨.exprPackageNone, 0, 1340672⟩, ⟨.exprUnion, 0, 1340672⟩, ⟨.exprSelect, 0, 1340672⟩, ⟨.exprSelectDefault, 0, 1340672⟩, ⟨.exprPolyApply, 0, 1340672⟩, ⟨.exprAbstractAccess, 0, 1340672⟩, ⟨.exprCast, 0, 1340672⟩, ⟨.exprList, 0, 1340672⟩, ⟨.exprLiteral, 0, 1340672⟩, ⟨.exprBlock, 0, 1340672⟩, ⟨.blockStmt, 0, 1340672⟩, ⟨.blockFuncType, 0, 1340672⟩, ⟨.blockFunc, 0, 1340672⟩, ⟨.blockPoly, 0, 1340672⟩]
private def i120 : List Item := [⟨.exprStructType, 4, 10254096⟩]
private def i121 : List Item := [⟨.exprUnionType, 4, 10254096⟩]
private def i122 : List Item := [⟨.exprPackage, 4, 10254096⟩]
private def i123 : List Item := [⟨.exprApply, 1, 9721088⟩, ⟨.exprAccess, 1, 9721088⟩, ⟨.exprCopy, 1, 9721088⟩, ⟨.exprUnion, 1, 9721088⟩, ⟨.exprSelect, 1, 9721088⟩, ⟨.exprSelectDefault, 1, 9721088⟩, ⟨.exprPolyApply, 1, 9721088⟩, ⟨.exprAbstractAccess, 1, 9721088⟩, ⟨.exprCast, 1, 9721088⟩, ⟨.exprList, 1, 9721088⟩, ⟨.exprLiteral, 1, 9721088⟩, ⟨.bindKind, 4, 8389632⟩]
private def i124 : List Item := [⟨.pathSlash, 3, 192⟩]
private def i125 : List Item := [⟨.blockFuncType, 4, 10254096⟩]
private def i126 : List Item := [⟨.exprApply, 1, 1865472⟩, ⟨.exprAccess, 1, 1865472⟩, ⟨.exprCopy, 1, 1865472⟩, ⟨.exprUnion, 1, 1865472⟩, ⟨.exprSelect, 1, 1865472⟩, ⟨.exprSelectDefault, 1, 1865472⟩, ⟨.exprPolyApply, 1, 1865472⟩, ⟨.exprAbstractAccess, 1, 1865472⟩, ⟨.exprCast, 1, 1865472⟩, ⟨.exprList, 1, 1865472⟩, ⟨.exprLiteral, 1, 1865472⟩, ⟨.exprsMore, 3, 534016⟩]
private def i127 : List Item := [⟨.blockFunc, 4, 10254096⟩]
private def i128 : List Item := [⟨.nkindPoly, 4, 16⟩]
private def i129 : List Item := [⟨.tkindPoly, 4, 1552⟩]
private def i130 : List Item := [⟨.tkindsMore, 3, 1536⟩]
private def i131 : List Item := [⟨.taggedKindsMore, 3, 1536⟩, ⟨.nameWord, 0, 1536⟩, ⟨.nameType, 0, 1536⟩]
private def i132 : List Item := [⟨.blockPoly, 4, 10254096⟩]
private def i133 : List Item := [⟨.tkindPoly, 2, 1536⟩, ⟨.tkindsMore, 1, 1536⟩]
private def i134 : List Item := [⟨.exprApply, 1, 1339648⟩, ⟨.exprAccess, 1, 1339648⟩, ⟨.exprCopy, 1, 1339648⟩, ⟨.exprUnion, 1, 1339648⟩, ⟨.exprUnion, 5, 10254096⟩, ⟨.exprSelect, 1, 1339648⟩, ⟨.exprSelectDefault, 1, 1339648⟩, ⟨.exprPolyApply, 1, 1339648⟩, ⟨.exprAbstractAccess, 1, 1339648⟩, ⟨.exprCast, 1, 1339648⟩, ⟨.exprList, 1, 1339648⟩, ⟨.exprLiteral, 1, 1339648⟩]
private def i135 : List Item := [⟨.exprCopy, 5, 10254096⟩, ⟨.implicitsMore, 1, 9216⟩]
private def i136 : List Item := [⟨.exprSelect, 5, 10254096⟩, ⟨.exprSelectDefault, 5, 10254096⟩, ⟨.taggedExprsMore, 1, 9216⟩]
private def i137 : List Item := [⟨.taggedExprsOne, 1, 9216⟩]
private def i138 : List Item := [⟨.taggedExpr, 1, 9216⟩]
private def i139 : List Item := [⟨.exprCast, 5, 10254096⟩]
private def i140 : List Item := [⟨.bindMoreType, 5, 8389632⟩, ⟨.nameWord, 0, 9721088⟩, ⟨.nameType, 0, 9721088⟩, ⟨.modulePath, 0, 9721088⟩, ⟨.exprTypeof, 0, 9721088⟩, ⟨.exprVar, 0, 9721088⟩, ⟨.exprModule, 0, 9721088⟩, ⟨.exprStructType, 0, 9721088⟩, ⟨.exprApply, 0, 9721088⟩, ⟨.exprStruct, 0, 9721088⟩, ⟨.exprAccess, 0, 9721088⟩, ⟨.exprCopy, 0, 9721088⟩, ⟨.exprUnionType, 0, 9721088⟩, ⟨.exprPackage, 0, 9721088⟩, ⟨.exprPackageNone, 0, 9721088⟩, ⟨.exprUnion, 0, 9721088⟩, ⟨.exprSelect, 0, 9721088⟩, ⟨.exprSelectDefault, 0, 9721088⟩, ⟨.exprPolyApply, 0, 9721088⟩, ⟨.exprAbstractAccess, 0, 9721088⟩, ⟨.exprCast, 0, 9721088⟩, ⟨.exprList, 0, 9721088⟩, ⟨.exprLiteral, 0, 9721088⟩, ⟨.exprBlock, 0, 9721088⟩, ⟨.blockStmt, 0, 9721088⟩, ⟨.blockFuncType, 0, 9721088⟩, ⟨.blockFunc, 0, 9721088⟩, ⟨.blockPoly, 0, 9721088⟩]
private def i141 : List Item := [⟨.bindMoreKind, 5, 8389632⟩, ⟨.nameWord, 0, 9721088⟩, ⟨.nameType, 0, 9721088⟩, ⟨.modulePath, 0, 9721088⟩, ⟨.exprTypeof, 0, 9721088⟩, ⟨.exprVar, 0, 9721088⟩, ⟨.exprModule, 0, 9721088⟩, ⟨.exprStructType, 0, 9721088⟩, ⟨.exprApply, 0, 9721088⟩, ⟨.exprStruct, 0, 9721088⟩, ⟨.exprAccess, 0, 9721088⟩, ⟨.exprCopy, 0, 9721088⟩, ⟨.exprUnionType, 0, 9721088⟩, ⟨.exprPackage, 0, 9721088⟩, ⟨.exprPackageNone, 0, 9721088⟩, ⟨.exprUnion, 0, 9721088⟩, ⟨.exprSelect, 0, 9721088⟩, ⟨.exprSelectDefault, 0, 9721088⟩, ⟨.exprPolyApply, 0, 9721088⟩, ⟨.exprAbstractAccess, 0, 9721088⟩, ⟨.exprCast, 0, 9721088⟩, ⟨.exprList, 0, 9721088⟩, ⟨.exprLiteral, 0, 9721088⟩, ⟨.exprBlock, 0, 9721088⟩, ⟨.blockStmt, 0, 9721088⟩, ⟨.blockFuncType, 0, 9721088⟩, ⟨.blockFunc, 0, 9721088⟩, ⟨.blockPoly, 0, 9721088⟩]
private def i142 : List Item := [⟨.stmtBind, 5, 64972303⟩, ⟨.nameWord, 0, 9720080⟩, ⟨.nameType, 0, 9720080⟩, ⟨.modulePath, 0, 9720080⟩, ⟨.nkindBasic, 0, 16⟩, ⟨.nkindPoly, 0, 16⟩, ⟨.tkindBasic, 0, 16⟩, ⟨.tkindPoly, 0, 16⟩, ⟨.kindN, 0, 16⟩, ⟨.kindT, 0, 16⟩, ⟨.exprTypeof, 0, 9720080⟩, ⟨.exprVar, 0, 9720080⟩, ⟨.exprModule, 0, 9720080⟩, ⟨.exprStructType, 0, 9720080⟩, ⟨.exprApply, 0, 9720080⟩, ⟨.exprStruct, 0, 9720080⟩, ⟨.exprAccess, 0, 9720080⟩, ⟨.exprCopy, 0, 9720080⟩, ⟨.exprUnionType, 0, 9720080⟩, ⟨.exprPackage, 0, 9720080⟩, ⟨.exprPackageNone, 0, 9720080⟩, ⟨.exprUnion, 0, 9720080⟩, ⟨.exprSelect, 0, 9720080⟩, ⟨.exprSelectDefault, 0, 9720080⟩, ⟨.exprPolyApply, 0, 9720080⟩, ⟨.exprAbstractAccess, 0, 9720080⟩, ⟨.exprCast, 0, 9720080⟩, ⟨.exprList, 0, 9720080⟩, ⟨.exprLiteral, 0, 9720080⟩, ⟨.exprBlock, 0, 9720080⟩, ⟨.blockStmt, 0, 9720080⟩, ⟨.blockFuncType, 0, 9720080⟩, ⟨.blockFunc, 0, 9720080⟩, ⟨.blockPoly, 0, 9720080⟩, ⟨.stmtExpr, 0, 64972303⟩, ⟨.stmtLet, 0, 64972303⟩, ⟨.stmtBind, 0, 64972303⟩, ⟨.stmtDefault, 0, 64972303⟩, ⟨.taggedType, 0, 1280⟩, ⟨.taggedTypesOne, 0, 1280⟩, ⟨.taggedTypesMore, 0, 1280⟩, ⟨.bindType, 0, 8389632⟩, ⟨.bindKind, 0, 8389632⟩, ⟨.bindMoreType, 0, 8389632⟩, ⟨.bindMoreKind, 0, 8389632⟩]
private def i143 : List Item := [⟨.implicitsMore, 3, 9216⟩]
private def i144 : List Item := [⟨.exprApply, 1, 1340672⟩, ⟨.exprAccess, 1, 1340672⟩, ⟨.exprCopy, 1, 1340672⟩, ⟨.exprUnion, 1, 1340672⟩, ⟨.exprSelect, 1, 1340672⟩, ⟨.exprSelectDefault, 1, 1340672⟩, ⟨.exprPolyApply, 1, 1340672⟩, ⟨.exprAbstractAccess, 1, 1340672⟩, ⟨.exprCast, 1, 1340672⟩, ⟨.exprList, 1, 1340672⟩, ⟨.exprLiteral, 1, 1340672⟩, ⟨.implicitColon, 3, 9216⟩]
private def i145 : List Item := [⟨.taggedKindsMore, 4, 1536⟩]
private def i146 : List Item := [⟨.tkindPoly, 3, 1536⟩, ⟨.tkindBasic, 0, 1536⟩, ⟨.tkindPoly, 0, 1536⟩]
private def i147 : List Item := [⟨.exprUnion, 6, 10254096⟩]
private def i148 : List Item := [⟨.exprCopy, 6, 10254096⟩]
private def i149 : List Item := [⟨.exprSelect, 6, 10254096⟩]
private def i150 : List Item := [⟨.exprSelectDefault, 6, 10254096⟩, ⟨.taggedExprsMore, 2, 9216⟩, ⟨.nameWord, 0, 65536⟩, ⟨.nameType, 0, 65536⟩, ⟨.taggedExpr, 0, 9216⟩]
private def i151 : List Item := [⟨.taggedExpr, 2, 9216⟩, ⟨.nameWord, 0, 1340672⟩, ⟨.nameType, 0, 1340672⟩, ⟨.modulePath, 0, 1340672⟩, ⟨.exprTypeof, 0, 1340672⟩, ⟨.exprVar, 0, 1340672⟩, ⟨.exprModule, 0, 1340672⟩, ⟨.exprStructType, 0, 1340672⟩, ⟨.exprApply, 0, 1340672⟩, ⟨.exprStruct, 0, 1340672⟩, ⟨.exprAccess, 0, 1340672⟩, ⟨.exprCopy, 0, 1340672⟩, ⟨.exprUnionType, 0, 1340672⟩, ⟨.exprPackage, 0, 1340672⟩, ⟨.exprPackageNone, 0, 1340672⟩, ⟨.exprUnion, 0, 1340672⟩, ⟨.exprSelect, 0, 1340672⟩, ⟨.exprSelectDefault, 0, 1340672⟩, ⟨.exprPolyApply, 0, 1340672⟩, ⟨.exprAbstractAccess, 0, 1340672⟩, ⟨.exprCast, 0, 1340672⟩, ⟨.exprList, 0, 1340672⟩, ⟨.exprLiteral, 0, 1340672⟩, ⟨.exprBlock, 0, 1340672⟩, ⟨.blockStmt, 0, 1340672⟩, ⟨.blockFuncType, 0, 1340672⟩, ⟨.blockFunc, 0, 1340672⟩, ⟨.blockPoly, 0, 1340672⟩]
private def i152 : List Item := [⟨.exprCast, 6, 10254096⟩, ⟨.nameWord, 0, 1339648⟩, ⟨.nameType, 0, 1339648⟩, ⟨.modulePath, 0, 1339648⟩, ⟨.exprTypeof, 0, 1339648⟩, ⟨.exprVar, 0, 1339648⟩, ⟨.exprModule, 0, 1339648⟩, ⟨.exprStructType, 0, 1339648⟩, ⟨.exprApply, 0, 1339648⟩, ⟨.exprStruct, 0, 1339648⟩, ⟨.exprAccess, 0, 1339648⟩, ⟨.exprCopy, 0, 1339648⟩, ⟨.exprUnionType, 0, 1339648⟩, ⟨.exprPackage, 0, 1339648⟩, ⟨.exprPackageNone, 0, 1339648⟩, ⟨.exprUnion, 0, 1339648⟩, ⟨.exprSelect, 0, 1339648⟩, ⟨.exprSelectDefault, 0, 1339648⟩, ⟨.exprPolyApply, 0, 1339648⟩, ⟨.exprAbstractAccess, 0, 1339648⟩, ⟨.exprCast, 0, 1339648⟩, ⟨.exprList, 0, 1339648⟩, ⟨.exprLiteral, 0, 1339648⟩, ⟨.exprBlock, 0, 1339648⟩, ⟨.blockStmt, 0, 1339648⟩, ⟨.blockFuncType, 0, 1339648⟩, ⟨.blockFunc, 0, 1339648⟩, ⟨.blockPoly, 0, 1339648⟩]
private def i153 : List Item := [⟨.exprApply, 1, 9721088⟩, ⟨.exprAccess, 1, 9721088⟩, ⟨.exprCopy, 1, 9721088⟩, ⟨.exprUnion, 1, 9721088⟩, ⟨.exprSelect, 1, 9721088⟩, ⟨.exprSelectDefault, 1, 9721088⟩, ⟨.exprPolyApply, 1, 9721088⟩, ⟨.exprAbstractAccess, 1, 9721088⟩, ⟨.exprCast, 1, 9721088⟩, ⟨.exprList, 1, 9721088⟩, ⟨.exprLiteral, 1, 9721088⟩, ⟨.bindMoreType, 6, 8389632⟩]
private def i154 : List Item := [⟨.exprApply, 1, 9721088⟩, ⟨.exprAccess, 1, 9721088⟩, ⟨.exprCopy, 1, 9721088⟩, ⟨.exprUnion, 1, 9721088⟩, ⟨.exprSelect, 1, 9721088⟩, ⟨.exprSelectDefault, 1, 9721088⟩, ⟨.exprPolyApply, 1, 9721088⟩, ⟨.exprAbstractAccess, 1, 9721088⟩, ⟨.exprCast, 1, 9721088⟩, ⟨.exprList, 1, 9721088⟩, ⟨.exprLiteral, 1, 9721088⟩, ⟨.bindMoreKind, 6, 8389632⟩]
private def i155 : List Item := [⟨.stmtBind, 6, 64972303⟩]
private def i156 : List Item := [⟨.exprSelectDefault, 7, 10254096⟩, ⟨.nameWord, 0, 1339648⟩, ⟨.nameType, 0, 1339648⟩, ⟨.modulePath, 0, 1339648⟩, ⟨.exprTypeof, 0, 1339648⟩, ⟨.exprVar, 0, 1339648⟩, ⟨.exprModule, 0, 1339648⟩, ⟨.exprStructType, 0, 1339648⟩, ⟨.exprApply, 0, 1339648⟩, ⟨.exprStruct, 0, 1339648⟩, ⟨.exprAccess, 0, 1339648⟩, ⟨.exprCopy, 0, 1339648⟩, ⟨.exprUnionType, 0, 1339648⟩, ⟨.exprPackage, 0, 1339648⟩, ⟨.exprPackageNone, 0, 1339648⟩, ⟨.exprUnion, 0, 1339648⟩, ⟨.exprSelect, 0, 1339648⟩, ⟨.exprSelectDefault, 0, 1339648⟩, ⟨.exprPolyApply, 0, 1339648⟩, ⟨.exprAbstractAccess, 0, 1339648⟩, ⟨.exprCast, 0, 1339648⟩, ⟨.exprList, 0, 1339648⟩, ⟨.exprLiteral, 0, 1339648⟩, ⟨.exprBlock, 0, 1339648⟩, ⟨.blockStmt, 0, 1339648⟩, ⟨.blockFuncType, 0, 1339648⟩, ⟨.blockFunc, 0, 1339648⟩, ⟨.blockPoly, 0, 1339648⟩]
private def i157 : List Item := [⟨.taggedExprsMore, 3, 9216⟩]
private def i158 : List Item := [⟨.exprApply, 1, 1340672⟩, ⟨.exprAccess, 1, 1340672⟩, ⟨.exprCopy, 1, 1340672⟩, ⟨.exprUnion, 1, 1340672⟩, ⟨.exprSelect, 1, 1340672⟩, ⟨.exprSelectDefault, 1, 1340672⟩, ⟨.exprPolyApply, 1, 1340672⟩, ⟨.exprAbstractAccess, 1, 1340672⟩, ⟨.exprCast, 1, 1340672⟩, ⟨.exprList, 1, 1340672⟩, ⟨.exprLiteral, 1, 1340672⟩, ⟨.taggedExpr, 3, 9216⟩]
private def i159 : List Item := [⟨.exprApply, 1, 1339648⟩, ⟨.exprAccess, 1, 1339648⟩, ⟨.exprCopy, 1, 1339648⟩, ⟨.exprUnion, 1, 1339648⟩, ⟨.exprSelect, 1, 1339648⟩, ⟨.exprSelectDefault, 1, 1339648⟩, ⟨.exprPolyApply, 1, 1339648⟩, ⟨.exprAbstractAccess, 1, 1339648⟩, ⟨.exprCast, 1, 1339648⟩, ⟨.exprCast, 7, 10254096⟩, ⟨.exprList, 1, 1339648⟩, ⟨.exprLiteral, 1, 1339648⟩]
private def i160 : List Item := [⟨.exprApply, 1, 1339648⟩, ⟨.exprAccess, 1, 1339648⟩, ⟨.exprCopy, 1, 1339648⟩, ⟨.exprUnion, 1, 1339648⟩, ⟨.exprSelect, 1, 1339648⟩, ⟨.exprSelectDefault, 1, 1339648⟩, ⟨.exprSelectDefault, 8, 10254096⟩, ⟨.exprPolyApply, 1, 1339648⟩, ⟨.exprAbstractAccess, 1, 1339648⟩, ⟨.exprCast, 1, 1339648⟩, ⟨.exprList, 1, 1339648⟩, ⟨.exprLiteral, 1, 1339648⟩]
private def i161 : List Item := [⟨.exprCast, 8, 10254096⟩]
private def i162 : List Item := [⟨.exprSelectDefault, 9, 10254096⟩]
private def c0 : Bin (List Item) := (.node (.node (.node (.node (.node (.leaf i0) (.leaf i128)) (.leaf i64)) (.node (.node (.leaf i32) (.leaf i160)) (.leaf i96))) (.node (.node (.node (.leaf i16) (.leaf i144)) (.leaf i80)) (.node (.leaf i48) (.leaf i112)))) (.node (.node (.node (.node (.leaf i8) (.leaf i136)) (.leaf i72)) (.node (.leaf i40) (.leaf i104))) (.node (.node (.node (.leaf i24) (.leaf i152)) (.leaf i88)) (.node (.leaf i56) (.leaf i120)))))
private def c1 : Bin (List Item) := (.node (.node (.node (.node (.node (.leaf i1) (.leaf i129)) (.leaf i65)) (.node (.node (.leaf i33) (.leaf i161)) (.leaf i97))) (.node (.node (.node (.leaf i17) (.leaf i145)) (.leaf i81)) (.node (.leaf i49) (.leaf i113)))) (.node (.node (.node (.node (.leaf i9) (.leaf i137)) (.leaf i73)) (.node (.leaf i41) (.leaf i105))) (.node (.node (.node (.leaf i25) (.leaf i153)) (.leaf i89)) (.node (.leaf i57) (.leaf i121)))))
private def c2 : Bin (List Item) := (.node (.node (.node (.node (.node (.leaf i2) (.leaf i130)) (.leaf i66)) (.node (.node (.leaf i34) (.leaf i162)) (.leaf i98))) (.node (.node (.node (.leaf i18) (.leaf i146)) (.leaf i82)) (.node (.leaf i50) (.leaf i114)))) (.node (.node (.node (.node (.leaf i10) (.leaf i138)) (.leaf i74)) (.node (.leaf i42) (.leaf i106))) (.node (.node (.node (.leaf i26) (.leaf i154)) (.leaf i90)) (.node (.leaf i58) (.leaf i122)))))
private def c3 : Bin (List Item) := (.node (.node (.node (.node (.node (.leaf i3) (.leaf i131)) (.leaf i67)) (.node (.leaf i35) (.leaf i99))) (.node (.node (.node (.leaf i19) (.leaf i147)) (.leaf i83)) (.node (.leaf i51) (.leaf i115)))) (.node (.node (.node (.node (.leaf i11) (.leaf i139)) (.leaf i75)) (.node (.leaf i43) (.leaf i107))) (.node (.node (.node (.leaf i27) (.leaf i155)) (.leaf i91)) (.node (.leaf i59) (.leaf i123)))))
private def c4 : Bin (List Item) := (.node (.node (.node (.node (.node (.leaf i4) (.leaf i132)) (.leaf i68)) (.node (.leaf i36) (.leaf i100))) (.node (.node (.node (.leaf i20) (.leaf i148)) (.leaf i84)) (.node (.leaf i52) (.leaf i116)))) (.node (.node (.node (.node (.leaf i12) (.leaf i140)) (.leaf i76)) (.node (.leaf i44) (.leaf i108))) (.node (.node (.node (.leaf i28) (.leaf i156)) (.leaf i92)) (.node (.leaf i60) (.leaf i124)))))
private def c5 : Bin (List Item) := (.node (.node (.node (.node (.node (.leaf i5) (.leaf i133)) (.leaf i69)) (.node (.leaf i37) (.leaf i101))) (.node (.node (.node (.leaf i21) (.leaf i149)) (.leaf i85)) (.node (.leaf i53) (.leaf i117)))) (.node (.node (.node (.node (.leaf i13) (.leaf i141)) (.leaf i77)) (.node (.leaf i45) (.leaf i109))) (.node (.node (.node (.leaf i29) (.leaf i157)) (.leaf i93)) (.node (.leaf i61) (.leaf i125)))))
private def c6 : Bin (List Item) := (.node (.node (.node (.node (.node (.leaf i6) (.leaf i134)) (.leaf i70)) (.node (.leaf i38) (.leaf i102))) (.node (.node (.node (.leaf i22) (.leaf i150)) (.leaf i86)) (.node (.leaf i54) (.leaf i118)))) (.node (.node (.node (.node (.leaf i14) (.leaf i142)) (.leaf i78)) (.node (.leaf i46) (.leaf i110))) (.node (.node (.node (.leaf i30) (.leaf i158)) (.leaf i94)) (.node (.leaf i62) (.leaf i126)))))
private def c7 : Bin (List Item) := (.node (.node (.node (.node (.node (.leaf i7) (.leaf i135)) (.leaf i71)) (.node (.leaf i39) (.leaf i103))) (.node (.node (.node (.leaf i23) (.leaf i151)) (.leaf i87)) (.node (.leaf i55) (.leaf i119)))) (.node (.node (.node (.node (.leaf i15) (.leaf i143)) (.leaf i79)) (.node (.leaf i47) (.leaf i111))) (.node (.node (.node (.leaf i31) (.leaf i159)) (.leaf i95)) (.node (.leaf i63) (.leaf i127)))))

/-- The items of the states, by number. -/
def itemTable : Bin (List Item) :=
  .node (.node (.node c0 c4) (.node c2 c6)) (.node (.node c1 c5) (.node c3 c7))

/-- The items of a state. -/
def items (s : Nat) : List Item := (itemTable.get s).getD []

/-- The terminals a symbol can begin with, as a bit mask. -/
def first (a : Nat) : Nat :=
  if a < numTerminals then 1 <<< a
  else [12, 12, 16, 16, 64, 384, 288, 416, 288, 416, 2136560, 2101504, 2136560, 2136560, 2136560, 2136560, 2136560, 2136560, 16, 16, 16, 16, 16, 2136560].getD (a - numTerminals) 0

/-- The symbols that can be empty. -/
def nullable (a : Nat) : Bool := [n_expr_s, n_tagged_type_s, n_implicit_tagged_expr_s].contains a

/-- Weights of the symbols, for termination. -/
def weight (a : Nat) : Nat :=
  if a < numTerminals then 30
  else [1, 1, 4, 1, 4, 2, 2, 1, 1, 1, 3, 4, 1, 2, 1, 3, 2, 1, 3, 2, 1, 2, 1, 1].getD (a - numTerminals) 0

/-- Weight of a state on top of the stack: 2 if something empty can be reduced. -/
def bonus (s : Nat) : Nat := if [26, 29, 38, 39].contains s then 2 else 0

end Verif.Parse
