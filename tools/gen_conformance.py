#!/usr/bin/env python3
# Translates the repository's own fixture suite (/repo/tests) into Lean data, so that the model can be
# replayed on it: writes lean/Verif/Conformance/Data.lean.  The GraphQL documents are parsed here, because
# the parser is an external crate and not part of the model.
import re,os
FX="/repo/tests/fixtures/"
OUT=os.path.join(os.path.dirname(os.path.abspath(__file__)),"../lean/Verif/Conformance/Data.lean")
TOK=re.compile(r'"""(?:.|\n)*?"""|"(?:\\.|[^"\\])*"|\.\.\.|[A-Za-z_][A-Za-z0-9_]*|-?[0-9.]+|[!$()\[\]{}:=|@&]')
def toks(s):
    out=[];i=0
    while i<len(s):
        if s[i] in " \t\r\n,": i+=1; continue
        if s[i]=="#":
            while i<len(s) and s[i]!="\n": i+=1
            continue
        m=TOK.match(s,i)
        if not m: raise ValueError("bad token at %d"%i)
        line=s.count("\n",0,i)+1; col=i-(s.rfind("\n",0,i)+1)+1
        out.append((m.group(0),line,col)); i=m.end()
    return out
class P:
    def __init__(s,text): s.t=toks(text); s.i=0
    def peek(s): return s.t[s.i][0] if s.i<len(s.t) else None
    def pos(s): return s.t[s.i][1:]
    def next(s): s.i+=1; return s.t[s.i-1][0]
    def eat(s,x):
        assert s.peek()==x,(s.peek(),x,s.i); s.i+=1
def q(s): return '"'+s.replace("\\","\\\\").replace('"','\\"').replace("\n","\\n")+'"'
def opt(s): return "none" if s is None else "(some %s)"%s
def lst(l): return "["+", ".join(l)+"]"
# --- executable documents
def value(p):
    t=p.peek()
    if t=="$": p.next(); return "(.var %s)"%q(p.next())
    if t in("true","false"): p.next(); return "(.bool %s)"%t
    assert t not in("[","{"); p.next(); return "(.other %s)"%q(t)
def args(p):
    r=[]
    if p.peek()=="(":
        p.next()
        while p.peek()!=")":
            n=p.next(); p.eat(":"); r.append("(%s, %s)"%(q(n),value(p)))
        p.next()
    return lst(r)
def ty(p):
    if p.peek()=="[":
        p.next(); r="(.list %s)"%ty(p); p.eat("]")
    else: r="(.named %s)"%q(p.next())
    if p.peek()=="!": p.next(); r="(.nonNull %s)"%r
    return r
def selset(p):
    p.eat("{"); r=[]
    while p.peek()!="}": r.append(sel(p))
    p.next(); return lst(r)
def sel(p):
    if p.peek()=="...":
        p.next(); l,c=p.pos()
        if p.peek()=="on":
            p.next(); n=p.next(); return ".inline ⟨%d, %d⟩ (some %s) [] %s"%(l,c,q(n),selset(p))
        return ".spread ⟨%d, %d⟩ %s []"%(l,c,q(p.next()))
    l,c=p.pos(); n=p.next(); al=None
    if p.peek()==":": p.next(); al=n; n=p.next()
    a=args(p); s=selset(p) if p.peek()=="{" else "[]"
    return ".field ⟨%d, %d⟩ %s %s %s [] %s"%(l,c,opt(q(al)) if al else "none",q(n),a,s)
def definition(p):
    l,c=p.pos(); k=p.next()
    if k=="fragment":
        n=p.next(); p.eat("on"); t=p.next()
        return ".fragment ⟨⟨%d, %d⟩, %s, %s, [], %s⟩"%(l,c,q(n),q(t),selset(p))
    n=p.next(); vs=[]
    if p.peek()=="(":
        p.next()
        while p.peek()!=")":
            vl,vc=p.pos(); p.eat("$"); vn=p.next(); p.eat(":"); vs.append("⟨⟨%d, %d⟩, %s, %s, none⟩"%(vl,vc,q(vn),ty(p)))
        p.next()
    return ".operation .%s ⟨%d, %d⟩ (some %s) %s [] %s"%(k,l,c,q(n),lst(vs),selset(p))
def document(text):
    p=P(text); r=[]
    while p.peek() is not None: r.append(definition(p))
    return lst(r)
# --- the schema
KIND={}
def sdl(text):
    p=P(text); T=[]
    def desc(): return p.next().strip('"') if p.peek() and p.peek().startswith('"') else None
    def jty():
        if p.peek()=="[":
            p.next(); r=("LIST",jty()); p.eat("]")
        else: r=("NAMED",p.next())
        if p.peek()=="!": p.next(); r=("NN",r)
        return r
    def dirs():
        dep=False
        while p.peek()=="@":
            p.next(); dep|=(p.next()=="deprecated")
            if p.peek()=="(":
                while p.next()!=")": pass
        return dep
    def fields():
        p.eat("{"); r=[]
        while p.peek()!="}":
            d=desc(); n=p.next()
            if p.peek()=="(":
                while p.next()!=")": pass
            p.eat(":"); t=jty(); r.append((n,d,t,dirs()))
        p.next(); return r
    while p.peek() is not None:
        d=desc(); k=p.next()
        if k=="schema":
            while p.next()!="}": pass
            continue
        n=p.next(); e=dict(kind=k,name=n,desc=d,impl=[],fields=None,vals=None,poss=None)
        if k=="scalar": dirs()
        elif k=="union":
            p.eat("="); e["poss"]=[p.next()]
            while p.peek()=="|": p.next(); e["poss"].append(p.next())
        elif k=="enum":
            p.eat("{"); e["vals"]=[]
            while p.peek()!="}": e["vals"].append(p.next())
            p.next()
        else:
            if p.peek()=="implements":
                p.next(); e["impl"].append(p.next())
                while p.peek()=="&": p.next(); e["impl"].append(p.next())
            e["fields"]=fields()
        T.append(e)
    return T
T=sdl(open(FX+"schema_generation/schema.graphql").read())
for s in ["ID","Boolean","String","Int","Float"]: T.append(dict(kind="scalar",name=s,desc=None,impl=[],fields=None,vals=None,poss=None))
UP={"type":"OBJECT","interface":"INTERFACE","input":"INPUT_OBJECT","scalar":"SCALAR","enum":"ENUM","union":"UNION"}
for e in T: KIND[e["name"]]=UP[e["kind"]]
for e in T:
    if e["kind"]=="interface": e["poss"]=[x["name"] for x in T if e["name"] in x["impl"]]
def jft(t):
    if t[0]=="NAMED": return "(.mk %s (some %s) none)"%(q(KIND[t[1]]),q(t[1]))
    return "(.mk %s none (some %s))"%(q("LIST" if t[0]=="LIST" else "NON_NULL"),jft(t[1]))
def jfield(f,inp): return "⟨%s, %s, %s, %s⟩"%(q(f[0]),opt(q(f[1])) if f[1] else "none",jft(f[2]),"none" if inp else "some %s"%("true" if f[3] else "false"))
def jtype(e):
    i=e["kind"]=="input"
    fs="some ["+",\n      ".join(jfield(f,i) for f in e["fields"])+"]" if e["fields"] is not None else "none"
    return "⟨%s, %s, %s, %s,\n    %s,\n    %s, %s⟩"%(q(UP[e["kind"]]),q(e["name"]),opt(q(e["desc"])) if e["desc"] else "none",
        "some "+lst(map(q,e["poss"])) if e["poss"] is not None else "none", fs if i else "none", "none" if i else fs,
        "some "+lst(map(q,e["vals"])) if e["vals"] is not None else "none")
# --- the fixtures: directory, extra arguments, expected exit status and substrings of the output
D="/tmp/qlc/"
CASES=[]
def case(dir,args="",code=0,out=()): CASES.append((dir,args,code,list(out)))
for x in ["compile_simple_query","compile_simple_subscription","compile_simple_mutation","compile_simple_fragment","compile_typename"]: case("typescript/"+x)
case("typescript/compile_with_all_module_config",'globalTypesModuleName := some "@web/graphql_globals", rootDirImportPrefix := some "@web/", typedGraphqlDocumentnodeModuleName := some "@web/typed_node"')
for x in ["compile_deep_fragments","compile_absolute_import_fragments"]: case("typescript/complex/"+x)
for x in sorted(os.listdir(FX+"typescript/complex/union")): case("typescript/complex/union/"+x)
for x in sorted(os.listdir(FX+"typescript/complex/interface")): case("typescript/complex/interface/"+x)
case("typescript/enumeration/compile_with_global_types")
case("typescript/field/compile_custom_scalar_any")
case("typescript/field/compile_custom_scalar_with_default_names","useCustomScalars := true")
case("typescript/field/compile_custom_scalar_with_prefixed_names",'useCustomScalars := true, customScalarPrefix := some "Prefix"')
case("typescript/field/compile_fields_with_recursive_list_types")
case("typescript/field/compile_fields_with_deprecation_marker")
case("typescript/field/compile_fields_without_readonly_marker","disableReadonlyTypes := true")
for x in sorted(os.listdir(FX+"typescript/variable")): case("typescript/variable/"+x)
case("cli/compile_with_importing_query_instead_of_fragment","",1,["= help: This document is not a fragment, and importing it is probably a mistake.",'#import "./imported_query.graphql"\n  |         ^',"--> "+D+"main_query.graphql"])
# tests/cli.rs expects the path as written (`…/./not_here.graphql`); the model prints normalised paths
case("cli/compile_with_missing_fragment","",1,["error: could not read `"+D+"not_here.graphql`: No such file or directory (os error 2)",'#import "./not_here.graphql"\n  |         ^',"--> "+D+"importing_missing_query.graphql"])
case("cli/run_with_unparseable_graphql","",1,["Parse error at 2:19","--> "+D+"unparseable.graphql"])
case("cli/compile_with_use_show_deprecation_warnings","showDeprecationWarnings := true",0,["warning: use of deprecated field `publicRSAKey` on type `User`","4 |     publicRSAKey\n  |     ^"])
case("schema/compile_with_non_schema_matching_graphql","",1,["= help: Check the fields of `Query`.","2 |   doesNotExist\n  |   ^","3 |   alsoIsNot: nonExistent\n  |   ^","--> "+D+"bad_schema_query.graphql:3:3","--> "+D+"bad_schema_query.graphql:2:3"])
case("cli/compile_with_narrowing","",0,["= help: The parent types of this spread are limited to `User`, making spreading `Host` extraneous.","6 |     ...SpreadOnHost\n  |        ^","--> "+D+"narrow_query.graphql:6:8","= help: The parent types of this spread are limited to `User`, making spreading `Network` extraneous.","7 |     ... on Network {\n  |         ^","--> "+D+"narrow_query.graphql:7:9"])
HEADER="/* eslint-disable */\n// This file was automatically generated and should not be edited.\n\n"
def tree(d,rel):
    es=[]
    for n in sorted(os.listdir(d)):
        f=os.path.join(d,n)
        if os.path.isdir(f): es.append(".dir (.ofString %s) %s"%(q(D+rel+n),tree(f,rel+n+"/")))
        elif n.endswith(".graphql"): es.append(".file (.ofString %s)"%q(D+rel+n))
    return lst(es)
o=["import Verif.Conformance.Replay","/-","Generated by tools/gen_conformance.py from /repo/tests: the fixture suite as Lean data.","-/","set_option autoImplicit false","","namespace Qlc.Conformance","",
"/-- tests/fixtures/schema_generation/schema.graphql as introspection data. -/","def schemaJson : JSchema := ⟨[","  "+",\n  ".join(jtype(e) for e in T)+"]⟩",""]
names=[]
for dir,a,code,out in CASES:
    base=FX+dir+"/"; files=[];docs=[];exp=[]
    for r,ds,fs in os.walk(base):
        for n in sorted(fs):
            f=os.path.join(r,n); rel=f[len(base):]; t=open(f).read()
            if n.endswith(".graphql"):
                files.append("(%s, %s)"%(q(D+rel),q(t)))
                if "unparseable" in n: docs.append('(%s, .error "Parse error at 2:19")'%q(t))
                else: docs.append("(%s, .ok %s)"%(q(t),document(t)))
            elif n.endswith(".ts"): exp.append("(%s, %s)"%(q(D+rel),q(HEADER+t.strip())))
    name="_".join(dir.split("/")[1:]); names.append(name)
    o+=["/-- tests/fixtures/%s. -/"%dir,"def %s : Fixture where"%name,"  args := { rootDir := some (.ofString %s), numThreads := some 2, noColor := true%s }"%(q(D.rstrip("/")),", "+a if a else ""),
        "  files := [\n    "+",\n    ".join(files)+"]","  docs := [\n    "+",\n    ".join(docs)+"]","  tree := .dir (.ofString %s) %s"%(q(D.rstrip("/")),tree(base,"")),
        "  expected := ["+("\n    "+",\n    ".join(exp) if exp else "")+"]","  code := %d"%code,"  output := "+lst(map(q,out)),""]
o+=["/-- All of them. -/","def all : List Fixture := [\n  "+",\n  ".join(names)+"]","","end Qlc.Conformance",""]
os.makedirs(os.path.dirname(OUT),exist_ok=True)
open(OUT,"w").write("\n".join(o))
print(len(CASES),"fixtures")
